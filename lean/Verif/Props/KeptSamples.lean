import Verif.Props.Kept
import Verif.Props.TimesSamples

/-!
# C85: samples
-/

namespace VJ

mutual
/-- all values in a value, whatever its type -/
def GoVal.subs : GoVal → List GoVal
  | .ptr v => .ptr v :: v.subs
  | .slice es sp => .slice es sp :: subsAll es
  | .arr es => .arr es :: subsAll es
  | .map kvs => .map kvs :: subsMembers kvs
  | .struct gs => .struct gs :: subsAll gs
  | v => [v]
def subsAll : List GoVal → List GoVal
  | [] => []
  | v :: vs => v.subs ++ subsAll vs
def subsMembers : List (Str × GoVal) → List GoVal
  | [] => []
  | (_, v) :: kvs => v.subs ++ subsMembers kvs
end

theorem subs_self (v : GoVal) : v ∈ v.subs := by cases v <;> simp [GoVal.subs]

theorem subsAll_mem {v x : GoVal} {l : List GoVal} (hv : v ∈ l) (hx : x ∈ v.subs) : x ∈ subsAll l := by
  induction l with
  | nil => cases hv
  | cons w l ih =>
    rw [subsAll, List.mem_append]
    rcases List.mem_cons.1 hv with rfl | hv
    · exact .inl hx
    · exact .inr (ih hv)

theorem subsMembers_mem {kv : Str × GoVal} {x : GoVal} {l : List (Str × GoVal)} (hv : kv ∈ l) (hx : x ∈ kv.2.subs) : x ∈ subsMembers l := by
  induction l with
  | nil => cases hv
  | cons w l ih =>
    obtain ⟨k, w⟩ := w
    rw [subsMembers, List.mem_append]
    rcases List.mem_cons.1 hv with rfl | hv
    · exact .inl hx
    · exact .inr (ih hv)

theorem part_subs {Γ : Env} {T t : TExpr} {V v : GoVal} (h : Part Γ T V t v) : ∀ {x}, x ∈ v.subs → x ∈ V.subs := by
  induction h with
  | self => exact fun h => h
  | ptr _ ih => exact fun h => ih (by rw [GoVal.subs]; exact .tail _ h)
  | slice _ hm ih => exact fun h => ih (by rw [GoVal.subs]; exact .tail _ (subsAll_mem hm h))
  | array _ hm ih => exact fun h => ih (by rw [GoVal.subs]; exact .tail _ (subsAll_mem hm h))
  | map _ hm ih => exact fun h => ih (by rw [GoVal.subs]; exact .tail _ (subsMembers_mem hm h))
  | «alias» _ _ _ ih => exact ih
  | field _ _ _ _ hg ih => exact fun h => ih (by rw [GoVal.subs]; exact .tail _ (subsAll_mem (List.mem_of_getElem? hg) h))

namespace Examples.Kept
open TimeText Times Sample
attribute [local instance] Times.goExt

/-- type Stay struct { In time.Time `json:"in"`; Out *time.Time `json:"out,omitempty"`; Log []time.Time `json:"log"`;
Days Days `json:"days,omitempty"`; Ends [2]time.Time `json:"ends"`; Rate float64 `json:"rate"`; Ratio *float32 `json:"ratio,omitempty"`;
Marks map[string]float32 `json:"marks"`; Next *Stay `json:"next,omitempty"` } -/
def stay : List FieldDecl :=
  [⟨.time, tag "in"⟩, ⟨.star .time, tagOpt "out" "omitempty"⟩, ⟨.slice .time, tag "log"⟩, ⟨.named 2, tagOpt "days" "omitempty"⟩,
   ⟨.array 2 .time, tag "ends"⟩, ⟨.prim .float64, tag "rate"⟩, ⟨.star (.prim .float32), tagOpt "ratio" "omitempty"⟩,
   ⟨.map (.prim .float32), tag "marks"⟩, ⟨.star (.named 0), tagOpt "next" "omitempty"⟩]
/-- type Moment time.Time; type Days []time.Time -/
def Γ : Env :=
  { decl := fun n => if n = 0 then some (.struct false stay) else if n = 1 then some (.alias .time)
      else if n = 2 then some (.alias (.slice .time)) else none
    ext := fun _ => .unsupp }
def types : List Nat := [0, 1, 2]
def kinds : Kinds := { floats := true, times := true }

set_option maxRecDepth 200000 in
theorem enc : EncPackage Γ noDoc (· ∈ types) where
  closed n d t m hn hd ht hm := by
    have h : ∀ n ∈ types, ∀ d ∈ Γ.decl n, ∀ t ∈ d.types, ∀ m ∈ t.names, m ∈ types := by decide
    exact h n hn d hd t ht m hm
  noAnon n d t hn hd ht := by
    have h : ∀ n ∈ types, ∀ d ∈ Γ.decl n, ∀ t ∈ d.types, t.anon = false := by decide
    exact h n hn d hd t ht
  sels n d t m hn hd ht hm := by
    have h : ∀ n ∈ types, ∀ d ∈ Γ.decl n, ∀ t ∈ d.types, t.sels = [] := by decide
    rw [h n hn d hd t ht] at hm; cases hm
  keys n strict fields fd hn hd hf := by
    have h : ∀ n ∈ types, ∀ d ∈ Γ.decl n, (match d with | .struct _ fields => fields.all (fun fd => plainb fd.tags.jsonName) | _ => true) = true := by
      decide
    exact plainb_iff (List.all_eq_true.1 (h n hn _ hd) fd hf)
  times t := (C83_plain goTimes t).1
  timeTexts t s h := (C83_plain goTimes t).2.2 s h
  layouts n strict fields fd hn hd hf := by
    have h : ∀ n ∈ types, ∀ d ∈ Γ.decl n, (match d with | .struct _ fields => fields.all (fun fd => decide (fd.tags.layout = [])) | _ => true) = true := by
      decide
    have := of_decide_eq_true (List.all_eq_true.1 (h n hn _ hd) fd hf)
    rw [this]
    exact ⟨fun t => (C83_plain goTimes t).1, (C83_plain goTimes _).2.1⟩
  foreign n r w w' hn hd hw h := by cases h
  tame n r hd := .unsupp

set_option maxRecDepth 200000 in
theorem plain : PlainPackageOf kinds Γ (· ∈ types) where
  closed n d t m hn hd ht hm := by
    have h : ∀ n ∈ types, ∀ d ∈ Γ.decl n, ∀ t ∈ d.types, ∀ m ∈ t.names, m ∈ types := by decide
    exact h n hn d hd t ht m hm
  declared n hn := by
    have h : ∀ n ∈ types, Γ.decl n ≠ none := by decide
    exact h n hn
  decoders n hn := by
    have h : ∀ n ∈ types, ∃ d ∈ Γ.decl n, isOk (genFill Γ 5 d) = true := by decide
    obtain ⟨d, hd, h⟩ := h n hn
    cases hg : genFill Γ 5 d with
    | ok ir => exact ⟨d, 5, ir, hd, hg⟩
    | _ => rw [hg] at h; cases h
  encoders n hn := by
    have h : ∀ n ∈ types, ∃ d ∈ Γ.decl n, isOk (genMarshal Γ d) = true := by decide
    obtain ⟨d, hd, h⟩ := h n hn
    cases hg : genMarshal Γ d with
    | ok ir => exact ⟨d, ir, hd, hg⟩
    | _ => rw [hg] at h; cases h
  zeros n d hn hd := by
    have h : ∀ n ∈ types, ∀ d ∈ Γ.decl n, isOk (genZero Γ 5 d) = true := by decide
    have := h n hn d hd
    cases hg : genZero Γ 5 d with
    | ok ir => exact ⟨5, ir, hg⟩
    | _ => rw [hg] at this; cases this
  acyclic := by
    refine ⟨fun n => 2 - n, fun n d m hn hd hm => ?_⟩
    have h : ∀ n ∈ types, ∀ d ∈ Γ.decl n, ∀ m ∈ d.inner, 2 - m < 2 - n := by decide
    exact h n hn d hd m hm
  fields n strict fields fd hn hd hf := by
    have h : ∀ n ∈ types, ∀ d ∈ Γ.decl n, (match d with | .struct _ fields => fields.all (plainFieldb kinds Γ 5) | _ => true) = true := by decide
    exact plainFieldb_iff (List.all_eq_true.1 (h n hn _ hd) fd hf)
  distinct n strict fields hn hd := by
    have h : ∀ n ∈ types, ∀ d ∈ Γ.decl n, (match d with
      | .struct _ fields => decide (fields.map fun fd => fd.tags.jsonName).Nodup | _ => true) = true := by decide
    exact of_decide_eq_true (h n hn _ hd)
  commas n strict fields i fd hn hd hf hs ho := by
    have h : ∀ n ∈ types, ∀ d ∈ Γ.decl n, (match d with
      | .struct _ fields => fields.all (fun fd => (match fd.typ with | .star _ => false | _ => true) || fd.tags.omitempty)
      | _ => true) = true := by decide
    have := List.all_eq_true.1 (h n hn _ hd) fd (List.mem_of_getElem? hf)
    obtain ⟨t, ht⟩ := hs
    simp [ht, ho] at this
  names n u hn hd := by
    have h : ∀ n ∈ types, ∀ d ∈ Γ.decl n, (match d with
      | .alias u => plainTypeb kinds Γ 5 u && (match u with | .star _ => false | _ => true) | _ => true) = true := by decide
    have := h n hn _ hd
    simp only [Bool.and_eq_true] at this
    refine ⟨plainTypeb_iff this.1, ?_⟩
    rintro t rfl
    cases this.2

/-- the zero instant, in a field that is omitted and in one that is not -/
def inner : GoVal := .struct [.time .zero, .nil, .slice [] [], .nil, .arr [.time .zero, .time leapDay], .float 0, .nil, .nil, .nil]
def val : GoVal := .struct [.time leapDay, .ptr (.time leapDay), .slice [.time leapDay, .time .zero] [.time .zero],
  .slice [.time leapDay] [], .arr [.time .zero, .time .zero], .float 7, .ptr (.float 8), .map [(VJ.str "a", .float 9)], .ptr inner]

theorem leapDay_good : GoodTime leapDay :=
  ⟨leapDay_showable.1, by decide, by decide, by decide +kernel⟩
theorem zero_good : GoodTime .zero :=
  ⟨fun d h => by rw [onDate_unique h zero_on]; decide, by decide, by decide, fun _ => rfl⟩

theorem good : GoodParts Γ (.named 0) val where
  times t h := by
    have := part_subs h (subs_self _)
    simp only [val, inner, GoVal.subs, subsAll, subsMembers, List.append_nil, List.mem_cons, List.mem_append, List.not_mem_nil, or_false,
      reduceCtorEq, false_or, GoVal.time.injEq] at this
    have : t = leapDay ∨ t = .zero := by
      simp only [or_assoc] at this
      rcases this with h | h | h | h | h | h | h | h | h | h <;> simp [h]
    rcases this with rfl | rfl
    · exact leapDay_good
    · exact zero_good
  floats p f h := by
    have := part_subs h (subs_self _)
    simp only [val, inner, GoVal.subs, subsAll, subsMembers, List.append_nil, List.mem_cons, List.mem_append, List.not_mem_nil, or_false,
      reduceCtorEq, false_or, GoVal.float.injEq] at this
    have hf : ∀ f ∈ [(7 : F64), 8, 9, 0], Ext.parseFloat (Ext.fmtFloat f) = some f ∧ (F64.isZero f = true → f = 0) ∧ Ext.toFloat32 f = f ∧
        Ext.gtMaxFloat32 f = false := by decide +kernel
    have hm : f ∈ [(7 : F64), 8, 9, 0] := by simpa [or_assoc] using this
    obtain ⟨h1, h2, h3, h4⟩ := hf f hm
    refine ⟨?_, h1, h2, fun _ => ⟨h3, h4⟩⟩
    refine (@FloatTexts.finite Sample.ext Examples.floatTexts :) f ?_
    have : ∀ f ∈ [(7 : F64), 8, 9, 0], ¬ Nonfinite f := by unfold Nonfinite; decide +kernel
    exact this f hm

set_option maxRecDepth 200000 in
theorem inner_typed : HasType Γ NoForeign (.named 0) inner := by
  refine .struct (.named 0) rfl rfl fun i fd g hf hg => ?_
  match i with
  | 0 => cases hf; cases hg; exact .time _
  | 1 => cases hf; cases hg; exact .nilPtr _
  | 2 => cases hf; cases hg; exact .slice (by decide) (by simp) (by simp)
  | 3 => cases hf; cases hg; exact .alias (.named 2) rfl (.nilSlice _)
  | 4 => cases hf; cases hg; exact .array (by decide) rfl (by simp [HasType.time])
  | 5 => cases hf; cases hg; exact .prim (.float64 _)
  | 6 => cases hf; cases hg; exact .nilPtr _
  | 7 => cases hf; cases hg; exact .nilMap _
  | 8 => cases hf; cases hg; exact .nilPtr _
  | i + 9 => cases hf

set_option maxRecDepth 200000 in
theorem val_typed : HasType Γ NoForeign (.named 0) val := by
  refine .struct (.named 0) rfl rfl fun i fd g hf hg => ?_
  match i with
  | 0 => cases hf; cases hg; exact .time _
  | 1 => cases hf; cases hg; exact .ptr (.time _)
  | 2 => cases hf; cases hg; exact .slice (by decide) (by simp [HasType.time]) (by simp [HasType.time])
  | 3 => cases hf; cases hg; exact .alias (.named 2) rfl (.slice (by decide) (by simp [HasType.time]) (by simp))
  | 4 => cases hf; cases hg; exact .array (by decide) rfl (by simp [HasType.time])
  | 5 => cases hf; cases hg; exact .prim (.float64 _)
  | 6 => cases hf; cases hg; exact .ptr (.prim (.float32 _))
  | 7 => cases hf; cases hg; exact .map (by decide) (by simpa using HasType.prim (.float32 _))
  | 8 => cases hf; cases hg; exact .ptr inner_typed
  | i + 9 => cases hf

/-- the hypotheses hold for a value with times and floats everywhere -/
example : ∃ s jv, Marshals Γ 0 (some val) (.ok s) ∧ Json jv s ∧
    (DepthLe 300 jv → ∀ z, ZeroIs Γ 0 z → ∀ e v', Unmarshals Γ 0 s z e v' ↔ e = none ∧ v' = val.trim) :=
  C85_every_value goTimes enc plain (by decide +kernel) (by simp [types]) val_typed good

/-- what it is encoded as -/
example : Marshals Γ 0 (some val) (.ok (str "{\"in\":\"2024-02-29T12:30:45.67+03:00\",\"out\":\"2024-02-29T12:30:45.67+03:00\",\"log\":[\"2024-02-29T12:30:45.67+03:00\",\"0001-01-01T00:00:00Z\"],\"days\":[\"2024-02-29T12:30:45.67+03:00\"],\"ends\":[\"0001-01-01T00:00:00Z\",\"0001-01-01T00:00:00Z\"],\"rate\":7,\"ratio\":8,\"marks\":{\"a\":9},\"next\":{\"in\":\"0001-01-01T00:00:00Z\",\"log\":[],\"ends\":[\"0001-01-01T00:00:00Z\",\"2024-02-29T12:30:45.67+03:00\"],\"rate\":0,\"marks\":null}}")) :=
  ⟨5, by decide +kernel⟩

/-- the zero instant, in a zone an hour ahead -/
def otherZero : Time := ⟨Time.zero.ns, 3600⟩
def lost (t : Time) : GoVal := .struct [.time t, .nil, .nil, .nil, .arr [.time .zero, .time .zero], .float 0, .nil, .nil, .nil]

/-- **C85, why the zero instant has to be in UTC**: two values with the same text. -/
theorem C85_zone_lost : ∃ s, Marshals Γ 0 (some (lost .zero)) (.ok s) ∧ Marshals Γ 0 (some (lost otherZero)) (.ok s) ∧
    ¬ SameVisible (lost .zero) (lost otherZero) := by
  refine ⟨str "{\"in\":\"0001-01-01T00:00:00Z\",\"log\":null,\"ends\":[\"0001-01-01T00:00:00Z\",\"0001-01-01T00:00:00Z\"],\"rate\":0,\"marks\":null}",
    ⟨5, by decide +kernel⟩, ⟨5, by decide +kernel⟩, ?_⟩
  intro h
  simp [SameVisible, lost, GoVal.trim, trimAll, otherZero, Time.zero] at h

end Examples.Kept
end VJ
