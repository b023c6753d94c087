import Verif.Props.Floats
import Verif.Props.KeptSamples

/-!
# C86: samples
-/

namespace VJ.Examples.FloatTexts
open Floats Sample

/-- the parameters, as they are in Go -/
@[instance_reducible] def goExt : Ext :=
  { Times.goExt with
    parseFloat := parse
    fmtFloat := format
    gtMaxFloat32 := fun f => decide (0x47efffffe0000000 < f.toNat ∧ f.toNat ≤ 2047 * 2 ^ 52) }

attribute [local instance] goExt

theorem goFloats : GoFloats where
  parse _ _ := rfl
  format _ _ := rfl

theorem goTimes : TimeText.GoTimes where
  parse s h := by show (TimeText.chunks _).bind (TimeText.parse · s) = _; rw [h]; rfl
  format t h := by show ((TimeText.chunks _).map (TimeText.format · t)).getD [] = _; rw [h]; rfl
  text _ := rfl

/-- type Quote struct { Rate float64 `json:"rate"`; Spread *float64 `json:"spread,omitempty"`; Past []float64 `json:"past"` } -/
def quote : List FieldDecl :=
  [⟨.prim .float64, tag "rate"⟩, ⟨.star (.prim .float64), tagOpt "spread" "omitempty"⟩, ⟨.slice (.prim .float64), tag "past"⟩]
def Γ : Env := { decl := fun n => if n = 0 then some (.struct false quote) else none, ext := fun _ => .unsupp }
def types : List Nat := [0]
def kinds : Kinds := { floats := true, times := true }

/-- 1005000, 1004999.9999999999, 1000, 0.25 and 100.5 -/
def f1 : F64 := 0x412eab9000000000
def f1' : F64 := 0x412eab8fffffffff
def f2 : F64 := 0x408f400000000000
def f3 : F64 := 0x3fd0000000000000
def f4 : F64 := 0x4059200000000000

def isQuote : Out (Option Err × GoVal) → Bool
  | .ok (none, .struct [.float g, .nil, .slice [] []]) => g == f1'
  | _ => false

theorem isQuote_iff {r : Out (Option Err × GoVal)} (h : isQuote r = true) : r = .ok (none, .struct [.float f1', .nil, .slice [] []]) := by
  unfold isQuote at h
  split at h
  · rw [eq_of_beq h]
  · cases h

/-- **C86, a float that does not come back:** 1005000 is written `1.005e+06`, and that is read as 1004999.9999999999. -/
theorem C86_lost : Marshals Γ 0 (some (.struct [.float f1, .nil, .slice [] []])) (.ok (str "{\"rate\":1.005e+06,\"past\":[]}")) ∧
    Unmarshals Γ 0 (str "{\"rate\":1.005e+06,\"past\":[]}") (.struct [.float 0, .nil, .nil]) none (.struct [.float f1', .nil, .slice [] []]) ∧
    f1' ≠ f1 :=
  ⟨⟨5, by decide +kernel⟩, ⟨5, isQuote_iff (by decide +kernel)⟩, by decide⟩

set_option maxRecDepth 200000 in
theorem enc : EncPackage Γ noDoc (· ∈ types) where
  closed n d t m hn hd ht hm := by
    have h : ∀ n ∈ types, ∀ d ∈ Γ.decl n, ∀ t ∈ d.types, ∀ m ∈ t.names, m ∈ types := by decide
    exact h n hn d hd t ht m hm
  noAnon n d t hn hd ht := by
    have h : ∀ n ∈ types, ∀ d ∈ Γ.decl n, ∀ t ∈ d.types, t.anon = false := by decide
    exact h n hn d hd t ht
  sels n d t m hn hd ht hm := by
    have h : ∀ n ∈ types, ∀ d ∈ Γ.decl n, ∀ t ∈ d.types, t.sels = [] := by decide
    rw [h n hn d hd t ht] at hm; cases hm
  keys n strict fields fd hn hd hf := by
    have h : ∀ n ∈ types, ∀ d ∈ Γ.decl n, (match d with | .struct _ fields => fields.all (fun fd => plainb fd.tags.jsonName) | _ => true) = true := by
      decide
    exact plainb_iff (List.all_eq_true.1 (h n hn _ hd) fd hf)
  times t := (C83_plain goTimes t).1
  timeTexts t s h := (C83_plain goTimes t).2.2 s h
  layouts n strict fields fd hn hd hf := by
    have h : ∀ n ∈ types, ∀ d ∈ Γ.decl n, (match d with | .struct _ fields => fields.all (fun fd => decide (fd.tags.layout = [])) | _ => true) = true := by
      decide
    have := of_decide_eq_true (List.all_eq_true.1 (h n hn _ hd) fd hf)
    rw [this]
    exact ⟨fun t => (C83_plain goTimes t).1, (C83_plain goTimes _).2.1⟩
  foreign n r w w' hn hd hw h := by cases h
  tame n r hd := .unsupp

set_option maxRecDepth 200000 in
theorem plain : PlainPackageOf kinds Γ (· ∈ types) where
  closed n d t m hn hd ht hm := by
    have h : ∀ n ∈ types, ∀ d ∈ Γ.decl n, ∀ t ∈ d.types, ∀ m ∈ t.names, m ∈ types := by decide
    exact h n hn d hd t ht m hm
  declared n hn := by
    have h : ∀ n ∈ types, Γ.decl n ≠ none := by decide
    exact h n hn
  decoders n hn := by
    have h : ∀ n ∈ types, ∃ d ∈ Γ.decl n, isOk (genFill Γ 5 d) = true := by decide
    obtain ⟨d, hd, h⟩ := h n hn
    cases hg : genFill Γ 5 d with
    | ok ir => exact ⟨d, 5, ir, hd, hg⟩
    | _ => rw [hg] at h; cases h
  encoders n hn := by
    have h : ∀ n ∈ types, ∃ d ∈ Γ.decl n, isOk (genMarshal Γ d) = true := by decide
    obtain ⟨d, hd, h⟩ := h n hn
    cases hg : genMarshal Γ d with
    | ok ir => exact ⟨d, ir, hd, hg⟩
    | _ => rw [hg] at h; cases h
  zeros n d hn hd := by
    have h : ∀ n ∈ types, ∀ d ∈ Γ.decl n, isOk (genZero Γ 5 d) = true := by decide
    have := h n hn d hd
    cases hg : genZero Γ 5 d with
    | ok ir => exact ⟨5, ir, hg⟩
    | _ => rw [hg] at this; cases this
  acyclic := by
    refine ⟨fun n => n, fun n d m hn hd hm => ?_⟩
    have h : ∀ n ∈ types, ∀ d ∈ Γ.decl n, ∀ m ∈ d.inner, m < n := by decide
    exact h n hn d hd m hm
  fields n strict fields fd hn hd hf := by
    have h : ∀ n ∈ types, ∀ d ∈ Γ.decl n, (match d with | .struct _ fields => fields.all (plainFieldb kinds Γ 5) | _ => true) = true := by decide
    exact plainFieldb_iff (List.all_eq_true.1 (h n hn _ hd) fd hf)
  distinct n strict fields hn hd := by
    have h : ∀ n ∈ types, ∀ d ∈ Γ.decl n, (match d with
      | .struct _ fields => decide (fields.map fun fd => fd.tags.jsonName).Nodup | _ => true) = true := by decide
    exact of_decide_eq_true (h n hn _ hd)
  commas n strict fields i fd hn hd hf hs ho := by
    have h : ∀ n ∈ types, ∀ d ∈ Γ.decl n, (match d with
      | .struct _ fields => fields.all (fun fd => (match fd.typ with | .star _ => false | _ => true) || fd.tags.omitempty)
      | _ => true) = true := by decide
    have := List.all_eq_true.1 (h n hn _ hd) fd (List.mem_of_getElem? hf)
    obtain ⟨t, ht⟩ := hs
    simp [ht, ho] at this
  names n u hn hd := by
    have h : ∀ n ∈ types, ∀ d ∈ Γ.decl n, (match d with
      | .alias u => plainTypeb kinds Γ 5 u && (match u with | .star _ => false | _ => true) | _ => true) = true := by decide
    have := h n hn _ hd
    simp only [Bool.and_eq_true] at this
    refine ⟨plainTypeb_iff this.1, ?_⟩
    rintro t rfl
    cases this.2

def val : GoVal := .struct [.float f2, .ptr (.float f3), .slice [.float f4, .float 0] []]

theorem plainFloat (p : Prim) {f : F64} (h : f ∈ [f2, f3, f4, 0]) : PlainFloat p f := by
  have h1 : ∀ f ∈ [f2, f3, f4, 0], magBits f < 2047 * 2 ^ 52 := by decide +kernel
  have h2 : ∀ f ∈ [f2, f3, f4, 0], ∀ c ∈ format f, c ≠ 'e' ∧ c ≠ 'E' := by decide +kernel
  have h3 : ∀ f ∈ [f2, f3, f4, 0], F64.isZero f = true → f = 0 := by decide +kernel
  have h4 : ∀ f ∈ [f2, f3, f4, 0], Ext.toFloat32 f = f ∧ Ext.gtMaxFloat32 f = false := by decide +kernel
  exact ⟨h1 f h, h2 f h, h3 f h, fun _ => h4 f h⟩

theorem val_typed : HasType Γ NoForeign (.named 0) val := by
  refine .struct (.named 0) rfl rfl fun i fd g hf hg => ?_
  match i with
  | 0 => cases hf; cases hg; exact .prim (.float64 _)
  | 1 => cases hf; cases hg; exact .ptr (.prim (.float64 _))
  | 2 => cases hf; cases hg; exact .slice (by decide) (by simpa using ⟨.prim (.float64 _), .prim (.float64 _)⟩) (by simp)
  | i + 3 => cases hf

/-- the hypotheses of `C86_values` hold -/
example : ∃ s jv, Marshals Γ 0 (some val) (.ok s) ∧ Json jv s ∧
    (DepthLe 300 jv → ∀ z, ZeroIs Γ 0 z → ∀ e v', Unmarshals Γ 0 s z e v' ↔ e = none ∧ v' = val.trim) := by
  refine C86_values goFloats goTimes enc plain (by simp [types]) val_typed (fun t h => ?_) (fun p f h => ?_)
  · have := part_subs h (subs_self _)
    simp [val, GoVal.subs, subsAll] at this
  · have := part_subs h (subs_self _)
    refine plainFloat p ?_
    simpa [val, GoVal.subs, subsAll, or_assoc] using this

/-- what it is encoded as -/
example : Marshals Γ 0 (some val) (.ok (str "{\"rate\":1000,\"spread\":0.25,\"past\":[100.5,0]}")) := ⟨5, by decide +kernel⟩

/-- a number without an exponent; one with -/
example : ∃ f, Ext.parseFloat (str "-0.1") = some f ∧ (Negative f ↔ true = true) ∧ Nearest f (⟨true, ['0'], ['1'], none⟩ : Parts).value :=
  C86_reads_partial goFloats (n := ⟨true, ['0'], ['1'], none⟩) (written_parts (by decide +kernel)) (.inl rfl)
example : ∃ f, Ext.parseFloat (str "12E+20") = some f ∧ (Negative f ↔ false = true) ∧ Nearest f (⟨false, ['1', '2'], [], some (false, ['2', '0'])⟩ : Parts).value :=
  C86_reads_partial goFloats (n := ⟨false, ['1', '2'], [], some (false, ['2', '0'])⟩) (written_parts (by decide +kernel)) (.inr ⟨rfl, _, rfl, by decide, by decide⟩)
/-- a number that is not read as the nearest float -/
example : ∃ f, Ext.parseFloat (str "3e-5") = some f ∧ IsFinite f ∧ (Negative f ↔ false = true) ∧
    |absVal f - (⟨false, ['3'], [], some (true, ['5'])⟩ : Parts).value| ≤ (⟨false, ['3'], [], some (true, ['5'])⟩ : Parts).value / 2 ^ 50 := by
  have hv : (⟨false, ['3'], [], some (true, ['5'])⟩ : Parts).value = 3 / 100000 := by
    rw [value_split _ rfl]
    have h5 : TimeText.digitsVal ['5'] = 5 := rfl
    have h3 : TimeText.digitsVal (['3'] ++ []) = 3 := rfl
    simp only [h5, h3, if_true, List.length_nil]
    norm_num
  refine C86_close_partial goFloats (n := ⟨false, ['3'], [], some (true, ['5'])⟩) (written_parts (by decide +kernel)) (.inr ⟨?_, ?_⟩)
  · rw [hv]
    refine le_trans (inv_mono (show 20 ≤ 1000 by norm_num)) ?_
    rw [two_eq]; norm_num
  · rw [hv]
    exact le_trans (by norm_num) (two_one 1000)
/-- in a struct -/
def isAny : Out (Option Err × GoVal) → Bool
  | .ok (none, .struct [.float _, _, _]) => true
  | _ => false
theorem isAny_iff {r : Out (Option Err × GoVal)} (h : isAny r = true) : ∃ g a b, r = .ok (none, .struct [.float g, a, b]) := by
  unfold isAny at h
  split at h
  · exact ⟨_, _, _, rfl⟩
  · cases h
example : ∃ new f, FieldAfter Γ 0 (.obj [(str "rate", .num (str "-0.1")), (str "past", .arr [])]) ⟨.prim .float64, tag "rate"⟩ (.float 0) new ∧
    new = .float f ∧ Negative f ∧ Nearest f (⟨true, ['0'], ['1'], none⟩ : Parts).value := by
  obtain ⟨g, a, b, h⟩ := isAny_iff (r := (Γ.methods 5 0).fill (.obj [(str "rate", .num (str "-0.1")), (str "past", .arr [])])
    (.struct [.float 0, .nil, .nil])) (by decide +kernel)
  have hfa : FieldAfter Γ 0 (.obj [(str "rate", .num (str "-0.1")), (str "past", .arr [])]) ⟨.prim .float64, tag "rate"⟩ (.float 0) (.float g) :=
    ⟨false, quote, [.float 0, .nil, .nil], [.float g, a, b], 0, rfl, rfl, rfl, rfl, ⟨5, h⟩⟩
  obtain ⟨f, h1, h2, h3⟩ := C86_field_partial goFloats (n := ⟨true, ['0'], ['1'], none⟩) hfa (by decide +kernel) (by decide +kernel) (.self _)
    (s := str "-0.1") rfl (written_parts (by decide +kernel)) (.inl rfl)
  exact ⟨_, f, hfa, h1, h2.2 rfl, h3⟩
/-- the largest float, the smallest, and one in between; their texts are not like each other -/
example : format 0x7fefffffffffffff = str "1.7976931348623157e+308" ∧ format 1 = str "5e-324" ∧ format 0x8000000000000001 = str "-5e-324" ∧
    format 0x3fb999999999999a = str "0.1" ∧ format 0x40fe240000000000 = str "123456" ∧ format f1 = str "1.005e+06" := by decide +kernel
example : ∃ n, Numeral n (Ext.fmtFloat f1) ∧ (n.neg = true ↔ Negative f1) ∧ Nearest f1 n.value :=
  (C86_text goFloats (by unfold IsFinite; decide +kernel)).2
/-- and one that does not come back unchanged -/
example : ∃ f', Ext.parseFloat (Ext.fmtFloat f1) = some f' ∧ IsFinite f' ∧ (Negative f' ↔ Negative f1) ∧ |absVal f' - absVal f1| ≤ absVal f1 / 2 ^ 50 := by
  have hu : units f1 = 1005000 * 2 ^ 1074 := by decide +kernel
  have ha : absVal f1 = 1005000 := by
    unfold absVal
    rw [hu, Nat.cast_mul, Nat.cast_pow, Nat.cast_ofNat, Nat.cast_ofNat, mul_div_cancel_right₀ _ (pow_pos (by norm_num) _).ne']
  refine C86_comes_back_partial goFloats (by unfold IsFinite; decide +kernel) ?_ ?_
  · rw [ha]
    refine le_trans (inv_mono (show 0 ≤ 999 by norm_num)) ?_
    rw [two_eq]; norm_num
  · rw [ha]
    refine le_trans ?_ (two_mono (show 20 ≤ 999 by norm_num))
    rw [two_eq]; norm_num
/-- beyond the largest float -/
example : parse (str "1e400") = some 0x7ff0000000000000 := by decide +kernel

end VJ.Examples.FloatTexts
