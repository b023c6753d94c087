import Verif.Props.TimesSamples

/-!
# C84: the tags that name a constant of package time

A decoder takes the tag `time.DateOnly` for the layout `2006-01-02` (generator/codegen/field/extractors.go:321), an encoder
for the layout `time.DateOnly`, in which nothing stands for a part of a time (generator/codegen/field/marshalers.go:57).
-/

namespace VJ
set_option linter.unusedSectionVars false
open TimeText

section
variable [Ext]

/-- the tags of the constants whose elements are all modelled -/
def constTags : List Str := [str "time.DateOnly", str "time.DateTime", str "time.TimeOnly"]

namespace TimeText

theorem format_lits (l : Str) (t : Time) : format (l.map .lit) t = l := by
  induction l with
  | nil => rfl
  | cons c l ih => simp only [format, List.map_cons, List.flatMap_cons, Chunk.text] at *; rw [ih]; rfl

end TimeText

/-- **C84, counterexample.** Under these tags every time is written as the tag itself, which is
read as no time. -/
theorem C84_constants (hG : GoTimes) {tag : Str} (h : tag ∈ constTags) :
    (∀ t, Ext.fmtTime tag t = tag) ∧ ∀ t', ¬ ReadsTime tag tag t' := by
  have hc : ∀ tag ∈ constTags, chunks tag = some (tag.map .lit) := by decide +kernel
  refine ⟨fun t => by rw [hG.format t (hc tag h), format_lits], fun t' hr => ?_⟩
  have key : ∀ tag ∈ constTags, (str "time." <+: tag ∧ '.' ∉ tag.drop 5) ∧
      ∀ p ∈ layoutConstants, tag = str "time." ++ str p.1 → ∃ l ∈ chunks (str p.2), parse l tag = none := by decide +kernel
  obtain ⟨hn, hp⟩ := key tag h
  generalize hs : tag = s at hr
  rw [← hs] at hr
  generalize hL : tag = L at hr
  cases hr with
  | default => subst hL; revert h; decide
  | @const _ _ name l hl hparse =>
    obtain ⟨p, hm, rfl, rfl⟩ := hl
    obtain ⟨l, hl, hnone⟩ := hp p hm hL
    subst hs
    rw [← hL, hG.parse _ hl, hnone] at hparse
    cases hparse
  | literal _ hn' => subst hL; exact hn' hn

/-- **C42, zero times.** A field without `omitempty` that holds a zero time is read as some time
of the text that stands for the zero time. -/
theorem C42_round_trip_zero {Γ : Env} {X : Nat → GoVal → Prop} {S : Nat → Prop} {F : Nat → Option GoVal → JV → Prop}
    (hP : Package Γ X S) (hW : Writers Γ F S) (hR : TripPackage Γ X F S)
    {n : Nat} (hn : S n) {strict : Bool} {fields : List FieldDecl} (hd : Γ.decl n = some (.struct strict fields)) {gs : List GoVal}
    (hv : HasType Γ X (.named n) (.struct gs)) {s : Str} (h : Marshals Γ n (some (.struct gs)) (.ok s)) {doc : JV} (hj : Document doc s)
    (hdep : DepthLe 300 doc) {i : Nat} {fd : FieldDecl} {t : Time}
    (hi : fields[i]? = some fd) (hg : gs[i]? = some (.time t)) (ht : fd.typ = .time) (ht0 : t.isZero = true) (ho : fd.tags.omitempty = false)
    {zs gs' : List GoVal} {z new : GoVal} (hz : zs[i]? = some z) (hnew : gs'[i]? = some new)
    (hu : Unmarshals Γ n s (.struct zs) none (.struct gs')) :
    ∃ t', new = .time t' ∧ ReadsTime fd.tags.layout
      (Ext.fmtTime (if fd.tags.layout = [] then str "2006-01-02T15:04:05Z07:00" else fd.tags.layout) .zero) t' := by
  have hfo : FieldOf Γ S fd := ⟨n, strict, fields, hn, hd, List.mem_of_getElem? hi⟩
  have hdash := (hR.named n strict fields fd hn hd (List.mem_of_getElem? hi)).1
  have hk : FieldKind Γ fd.typ .time := by rw [ht]; exact .time
  have hname := fieldKind_named hR hfo hk (by simp)
  obtain ⟨doc', hjs, hget⟩ := written_member hP hW.toEncPackage hR hW.oneDoc hn hd hv (fine_of_json hW hn hv h hj) h hi hg hname
    (.empty hk (.time ht0) ho (.time _))
  cases document_json hjs hj
  obtain ⟨s', t', hs', hh, hr⟩ := C42_read (after_text hd hjs hdep hu hi hz hnew) hdash hname (by rw [ht]; exact .self _) hget
    (by rintro ⟨u, h⟩; rw [ht] at h; cases h)
  cases hs'
  rw [ht] at hh
  exact ⟨t', hh, hr⟩

/-- **C84, in a struct.** A struct with such a field is written as a document that its own decoder
refuses, whatever the time, unless it is zero and the field has `omitempty`. -/
theorem C84_constants_field (hG : GoTimes) {Γ : Env} {X : Nat → GoVal → Prop} {S : Nat → Prop} {F : Nat → Option GoVal → JV → Prop}
    (hP : Package Γ X S) (hW : Writers Γ F S) (hR : TripPackage Γ X F S)
    {n : Nat} (hn : S n) {strict : Bool} {fields : List FieldDecl} (hd : Γ.decl n = some (.struct strict fields)) {gs : List GoVal}
    (hv : HasType Γ X (.named n) (.struct gs)) {s : Str} (h : Marshals Γ n (some (.struct gs)) (.ok s)) {doc : JV} (hj : Document doc s)
    (hdep : DepthLe 300 doc) {i : Nat} {fd : FieldDecl} {t : Time}
    (hi : fields[i]? = some fd) (hg : gs[i]? = some (.time t)) (ht : fd.typ = .time) (ht0 : t.isZero = false ∨ fd.tags.omitempty = false)
    (htag : fd.tags.layout ∈ constTags) {zs gs' : List GoVal} {z new : GoVal} (hz : zs[i]? = some z) (hnew : gs'[i]? = some new) :
    ¬ Unmarshals Γ n s (.struct zs) none (.struct gs') := by
  intro hu
  have hL : fd.tags.layout ≠ [] := by intro h0; rw [h0] at htag; revert htag; decide
  obtain ⟨hw, hr⟩ := C84_constants hG htag
  cases h0 : t.isZero with
  | false =>
    obtain ⟨t', rfl, h'⟩ := C42_round_trip hP hW hR hn hd hv h hj hdep hi hg ht h0 hz hnew hu
    rw [if_neg hL, hw] at h'
    exact hr t' h'
  | true =>
    have ho : fd.tags.omitempty = false := ht0.resolve_left (by simp [h0])
    obtain ⟨t', rfl, h'⟩ := C42_round_trip_zero hP hW hR hn hd hv h hj hdep hi hg ht h0 ho hz hnew hu
    rw [if_neg hL, hw] at h'
    exact hr t' h'

end

/-! ### a struct with such a tag -/

namespace Examples.Times
attribute [local instance] goExt

/-- type Day struct { On time.Time `json:"on" layout:"time.DateOnly"` } -/
def dayField : FieldDecl := ⟨.time, { jsonName := str "on", layout := str "time.DateOnly" }⟩
def ΓDay : Env := { decl := fun n => if n = 0 then some (.struct false [dayField]) else none, ext := fun _ => .unsupp }

theorem day_decl {n : Nat} {d : Decl} (hn : n < 1) (hd : ΓDay.decl n = some d) : d = .struct false [dayField] := by
  match n with
  | 0 => cases hd; rfl

theorem day_type {n : Nat} {d : Decl} {t : TExpr} (hn : n < 1) (hd : ΓDay.decl n = some d) (ht : t ∈ d.types) : t = .time := by
  cases day_decl hn hd
  simpa [Decl.types, dayField] using ht

theorem day_field {n : Nat} {strict : Bool} {fields : List FieldDecl} {fd : FieldDecl} (hn : n < 1)
    (hd : ΓDay.decl n = some (.struct strict fields)) (hf : fd ∈ fields) : fd = dayField := by
  cases day_decl hn hd
  simpa using hf

theorem day_package : Package ΓDay NoForeign (· < 1) where
  closed n d t m hn hd ht hm := by cases day_type hn hd ht; cases hm
  decoders n hn _ := by
    match n with
    | 0 => exact ⟨_, 5, _, rfl, rfl⟩
  noAnon n d t hn hd ht := by cases day_type hn hd ht; rfl
  acyclic := ⟨fun n => n, fun n d m hn hd hm => by cases day_decl hn hd; cases hm⟩
  foreignZero n hn hd := by
    match n with
    | 0 => cases hd
  foreignConv n v hn hd hx := hx.elim
  foreignFill n v s hn hd hx := hx.elim

theorem day_enc : EncPackage ΓDay noDoc (· < 1) where
  closed n d t m hn hd ht hm := by cases day_type hn hd ht; cases hm
  noAnon n d t hn hd ht := by cases day_type hn hd ht; rfl
  sels n d t m hn hd ht hm := by cases day_type hn hd ht; cases hm
  keys n strict fields fd hn hd hf := by rw [day_field hn hd hf]; exact plainb_iff (by decide)
  times t := (C83_plain goTimes t).1
  timeTexts t s h := (C83_plain goTimes t).2.2 s h
  layouts n strict fields fd hn hd hf := by
    rw [day_field hn hd hf]
    have h : ∀ t, PlainText (Ext.fmtTime (str "time.DateOnly") t) := fun t => by
      rw [(C84_constants goTimes (by decide)).1]; exact plainb_iff (by decide)
    exact ⟨h, h _⟩
  foreign n r w w' hn hd hw h := by cases h
  tame n r hd := .unsupp

theorem day_writers : Writers ΓDay noDoc (· < 1) :=
  { day_enc with
    floatTexts := ⟨(@FloatTexts.finite Sample.ext Examples.floatTexts :), (@FloatTexts.nonfinite Sample.ext Examples.floatTexts :)⟩
    oneDoc := noDoc_unique
    compact := by intro n r w s _ hd _ hr; cases hr }

theorem day_trip : TripPackage ΓDay NoForeign noDoc (· < 1) where
  named n strict fields fd hn hd hf := by
    rw [day_field hn hd hf]
    exact ⟨by decide, fun h => absurd h (by decide)⟩
  distinct n strict fields i j fd fd' key hn hd hi hj hk hk' := by
    cases day_decl hn hd
    match i, j with
    | 0, 0 => rfl
    | i + 1, _ => cases hi
    | _, j + 1 => cases hj
  strict n fields fd hn hd hf := by cases day_decl hn hd
  always n strict fields fd hn hd hf h := by
    rw [day_field hn hd hf] at h
    exact absurd h (by decide)
  zeroText := by decide
  foreign n v jv hn hd hx := hx.elim
  foreignConv n v hn hd hx := hx.elim
  foreignZero n z hn hd := by
    match n with
    | 0 => cases hd
  foreignNil n jv hn hd h := h.elim
  foreignSome n v jv hn hd hx := hx.elim

def dayText : Str := str "{\"on\":\"time.DateOnly\"}"

theorem day_marshals : ∀ t ∈ [leapDay, .zero], Marshals ΓDay 0 (some (.struct [.time t])) (.ok dayText) := by
  intro t ht
  simp only [List.mem_cons, List.not_mem_nil, or_false] at ht
  rcases ht with rfl | rfl
  · exact ⟨5, by decide +kernel⟩
  · exact ⟨5, by decide +kernel⟩

theorem day_typed (t : Time) : HasType ΓDay NoForeign (.named 0) (.struct [.time t]) :=
  typed_struct (n := 0) (strict := false) (fields := [dayField]) rfl (.cons (.time _) .nil)

theorem day_parts {t : Time} {u : TExpr} {v : GoVal} (h : Part ΓDay (.named 0) (.struct [.time t]) u v) :
    (u, v) ∈ [(TExpr.named 0, GoVal.struct [.time t]), (.time, .time t)] := by
  refine part_mem (by simp) ?_ h
  intro p hp
  simp only [List.mem_cons, List.not_mem_nil, or_false] at hp
  rcases hp with rfl | rfl <;> simp [partStep, ΓDay, dayField]

theorem day_fine (t : Time) : Fine ΓDay noDoc (.named 0) (.struct [.time t]) where
  floats p f h := by simpa using day_parts h.toPart
  commas e n strict fields gs h he hd := by
    have := day_parts h.toPart
    simp only [List.mem_cons, List.not_mem_nil, or_false, Prod.mk.injEq, reduceCtorEq, and_false, GoVal.struct.injEq] at this
    obtain ⟨rfl, rfl⟩ := this
    cases he; cases hd
    refine fun _ _ _ _ _ _ hij _ _ _ _ _ _ => ⟨0, _, _, by omega, rfl, rfl, not_omitted .time fun _ => ⟨rfl, by simp⟩, ?_⟩
    rintro ⟨_, k, hk, _, hs⟩
    cases fieldKind_unique hk (.time : FieldKind ΓDay .time .time)
    simp at hs
  splices e n strict fields gs h he hd := by
    have := day_parts h.toPart
    simp only [List.mem_cons, List.not_mem_nil, or_false, Prod.mk.injEq, reduceCtorEq, and_false, GoVal.struct.injEq] at this
    obtain ⟨rfl, rfl⟩ := this
    cases he; cases hd
    intro i m fd g jv hf hg hn
    match i with
    | 0 => cases hf; cases hn
    | i + 1 => cases hf

/-- whatever the receiver held, the document written for a day, or for none, is not read -/
theorem C84_day_lost : ∀ t ∈ [leapDay, .zero], Marshals ΓDay 0 (some (.struct [.time t])) (.ok dayText) ∧
    ∀ z new, ¬ Unmarshals ΓDay 0 dayText (.struct [.time z]) none (.struct [.time new]) := by
  refine fun t ht => ⟨day_marshals t ht, fun z new => ?_⟩
  obtain ⟨jv, h, _⟩ := C21_output_is_json_partial day_enc noDoc_unique (by decide) (day_typed t) (day_fine t) (day_marshals t ht)
  exact C84_constants_field goTimes day_package day_writers day_trip (n := 0) (by decide) rfl (day_typed t) (day_marshals t ht) (document_text h)
    ((json_depth h).mono (by decide +kernel)) (i := 0) rfl rfl rfl (.inr (by decide)) (by decide) rfl rfl

/-! ### zero times that come back -/

theorem zeros_parts {u : TExpr} {v : GoVal} (h : Part Γ (.named 0) (.struct [.time .zero, .time .zero]) u v) :
    (u, v) ∈ [(TExpr.named 0, GoVal.struct [.time .zero, .time .zero]), (.time, .time .zero)] := by
  refine part_mem (by simp) ?_ h
  intro p hp
  simp only [List.mem_cons, List.not_mem_nil, or_false] at hp
  rcases hp with rfl | rfl <;> simp [partStep, Γ, event]

theorem zeros_fine : Fine Γ noDoc (.named 0) (.struct [.time .zero, .time .zero]) where
  floats p f h := by simpa using zeros_parts h.toPart
  commas e n strict fields gs h he hd := by
    have := zeros_parts h.toPart
    simp only [List.mem_cons, List.not_mem_nil, or_false, Prod.mk.injEq, reduceCtorEq, and_false, GoVal.struct.injEq] at this
    obtain ⟨rfl, rfl⟩ := this
    cases he; cases hd
    refine fun _ _ _ _ _ _ hij _ _ _ _ _ _ => ⟨0, _, _, by omega, rfl, rfl, not_omitted .time fun _ => ⟨rfl, by simp⟩, ?_⟩
    rintro ⟨_, k, hk, _, hs⟩
    cases fieldKind_unique hk (.time : FieldKind Γ .time .time)
    simp at hs
  splices e n strict fields gs h he hd := by
    have := zeros_parts h.toPart
    simp only [List.mem_cons, List.not_mem_nil, or_false, Prod.mk.injEq, reduceCtorEq, and_false, GoVal.struct.injEq] at this
    obtain ⟨rfl, rfl⟩ := this
    cases he; cases hd
    intro i m fd g jv hf hg hn
    match i with
    | 0 | 1 => cases hf; cases hn
    | i + 2 => cases hf

def zerosText : Str := str "{\"at\":\"0001-01-01T00:00:00Z\",\"on\":\"01.01.0001\"}"

/-- C42 in a struct with zero times: each field is read from the text of the zero time -/
example : Marshals Γ 0 (some (.struct [.time .zero, .time .zero])) (.ok zerosText) ∧
    ∀ a b a' b', Unmarshals Γ 0 zerosText (.struct [a, b]) none (.struct [a', b']) →
      (∃ t, a' = .time t ∧ ReadsTime [] (str "0001-01-01T00:00:00Z") t) ∧
      ∃ t, b' = .time t ∧ ReadsTime (str "02.01.2006") (str "01.01.0001") t := by
  have hm : Marshals Γ 0 (some (.struct [.time .zero, .time .zero])) (.ok zerosText) := ⟨5, by decide +kernel⟩
  have ht : HasType Γ NoForeign (.named 0) (.struct [.time .zero, .time .zero]) :=
    typed_struct (n := 0) (strict := false) (fields := event) rfl (.cons (.time _) (.cons (.time _) .nil))
  refine ⟨hm, fun a b a' b' hu => ?_⟩
  obtain ⟨jv, h, _⟩ := C21_output_is_json_partial event_enc noDoc_unique (by decide) ht zeros_fine hm
  have hdep : DepthLe 300 jv := (json_depth h).mono (by decide +kernel)
  have h1 : Ext.fmtTime (str "2006-01-02T15:04:05Z07:00") .zero = str "0001-01-01T00:00:00Z" := by decide +kernel
  have h2 : Ext.fmtTime (str "02.01.2006") .zero = str "01.01.0001" := by decide +kernel
  constructor
  · rw [← h1]
    exact C42_round_trip_zero event_package event_writers event_trip (n := 0) (by decide) rfl ht hm (document_text h) hdep (i := 0)
      rfl rfl rfl (by decide +kernel) (by decide) rfl rfl hu
  · rw [← h2]
    exact C42_round_trip_zero event_package event_writers event_trip (n := 0) (by decide) rfl ht hm (document_text h) hdep (i := 1)
      rfl rfl rfl (by decide +kernel) (by decide) rfl rfl hu

end Examples.Times

end VJ
