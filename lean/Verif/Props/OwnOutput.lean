import Verif.Props.EncodeExact
import Verif.Proof.LexLoose
import Verif.Props.RoundTripSamples

/-!
# C65: the decoder and texts of the encoder that are not JSON

The decoder accepts more than JSON (`Spec/LooseText.lean`), so that a text that is not JSON might
still be read back.  Where a comma is missing it is not: `UnmarshalJSON` of every type refuses
what `MarshalJSON` has written.
-/

namespace VJ
set_option linter.unusedSectionVars false

section
variable [Ext] {Γ : Env} {X : Nat → GoVal → Prop} {S : Nat → Prop} {F : Nat → Option GoVal → JV → Prop}

/-- Of a value that makes the encoder forget or misplace a comma, with finite floats only,
`MarshalJSON` makes a text that the decoder does not accept either, whatever surrounds the place. -/
theorem C65_not_even_loose (hN : FloatTexts) (hP : EncPackage Γ F S) (hF : ∀ n r a b, F n r a → F n r b → a = b)
    (hC : CompactForeign Γ S) {n : Nat} (hn : S n) {v : GoVal} (hv : HasType Γ X (.named n) v)
    (hf : ∀ p f, Written Γ (.named n) v (.prim p) (.float f) → ¬ Nonfinite f) (ht : Trouble Γ F (.named n) v) {s : Str}
    (h : Marshals Γ n (some v) (.ok s)) : NotJSON s := by
  obtain ⟨e, w, ⟨k, hk⟩, he⟩ := marshals_iff.1 h
  cases e with
  | some e => cases he
  | none =>
    let : Nans := ⟨false⟩
    obtain ⟨s', rfl, h2⟩ := methods_bad hN hP hF hC k n v W.empty w hn hv (.inr hf) ht rfl hk
    cases he
    exact fun v hv => h2.rejected.not_loose rfl ⟨v, hv⟩

/-- **C65 for such values.** `UnmarshalJSON`, of this or any other type, refuses that text: it returns the error
of the parser and does not touch the receiver. -/
theorem C65_own_output_refused (hN : FloatTexts) (hP : EncPackage Γ F S) (hF : ∀ n r a b, F n r a → F n r b → a = b)
    (hC : CompactForeign Γ S) {n : Nat} (hn : S n) {v : GoVal} (hv : HasType Γ X (.named n) v)
    (hf : ∀ p f, Written Γ (.named n) v (.prim p) (.float f) → ¬ Nonfinite f) (ht : Trouble Γ F (.named n) v) {s : Str}
    (h : Marshals Γ n (some v) (.ok s)) {m : Nat} {r r' : GoVal} {e : Option Err} (hu : Unmarshals Γ m s r e r') :
    e = some ⟨none, .notJSON⟩ ∧ r' = r :=
  C02_not_json (C65_not_even_loose hN hP hF hC hn hv hf ht h) hu

/-- **C65.** If what `MarshalJSON` returned for a value with finite floats is not JSON, then
`UnmarshalJSON`, of this or any other type, returns the error of the parser and does not touch the
receiver. -/
theorem C65_not_json_refused (hN : FloatTexts) (hP : EncPackage Γ F S) (hF : ∀ n r a b, F n r a → F n r b → a = b)
    (hC : CompactForeign Γ S) {n : Nat} (hn : S n) {v : GoVal} (hv : HasType Γ X (.named n) v)
    (hf : ∀ p f, Written Γ (.named n) v (.prim p) (.float f) → ¬ Nonfinite f) {s : Str}
    (h : Marshals Γ n (some v) (.ok s)) (hs : ¬ ∃ jv, Document jv s) {m : Nat} {r r' : GoVal} {e : Option Err} (hu : Unmarshals Γ m s r e r') :
    e = some ⟨none, .notJSON⟩ ∧ r' = r :=
  C65_own_output_refused hN hP hF hC hn hv hf (Classical.byContradiction fun ht => hs ((C21_exact hN hP hF hC hn hv h).2 ht)) h hu

/-- **C65, the other way round**: whatever `UnmarshalJSON` of some type takes from `MarshalJSON`,
of a value with finite floats, is a JSON document. -/
theorem C65_accepted_is_json (hN : FloatTexts) (hP : EncPackage Γ F S) (hF : ∀ n r a b, F n r a → F n r b → a = b)
    (hC : CompactForeign Γ S) {n : Nat} (hn : S n) {v : GoVal} (hv : HasType Γ X (.named n) v)
    (hf : ∀ p f, Written Γ (.named n) v (.prim p) (.float f) → ¬ Nonfinite f) {s : Str}
    (h : Marshals Γ n (some v) (.ok s)) {m : Nat} {r r' : GoVal} (hu : Unmarshals Γ m s r none r') : ∃ jv, Document jv s := by
  refine (C21_exact hN hP hF hC hn hv h).2 fun ht => ?_
  cases (C65_own_output_refused hN hP hF hC hn hv hf ht h hu).1

end

namespace Examples
open Sample
attribute [local instance] Sample.ext

/-- the parts of the pair -/
theorem pair_floats {a : GoVal} {x y : F64} (ha : a = .nil ∨ a = .ptr (.float y)) {t : TExpr} {v : GoVal}
    (h : Written Γ2 (.named 1) (pairs a (.float x)) t v) :
    (t, v) ∈ [(.named 1, pairs a (.float x)), (.slice (.named 0), .slice [.struct [a, .float x]] []),
      (.named 0, .struct [a, .float x]), (.star (.prim .float64), a), (.prim .float64, .float y), (.prim .float64, .float x)] := by
  induction h with
  | self => simp
  | ptr _ ih =>
    simp [pairs] at ih
    obtain ⟨rfl, rfl⟩ := ih
    rcases ha with ha | ha <;> cases ha
    simp
  | slice _ hm ih =>
    simp [pairs] at ih
    obtain ⟨rfl, rfl, rfl⟩ := ih
    cases List.mem_singleton.1 hm
    simp
  | array _ _ ih => simp [pairs] at ih
  | map _ _ ih => simp [pairs] at ih
  | «alias» _ he hd ih =>
    cases he with
    | named => simp [pairs] at ih; rcases ih with ⟨rfl, -⟩ | ⟨rfl, -⟩ <;> cases hd
    | sel => simp [pairs] at ih
  | @field _ _ i _ _ _ _ _ _ he hd hf hg _ ih =>
    cases he with
    | sel => simp [pairs] at ih
    | named =>
      simp [pairs] at ih
      rcases ih with ⟨rfl, rfl⟩ | ⟨rfl, rfl⟩ <;> cases hd
      · match i with
        | 0 => cases hf; cases hg; simp
        | i + 1 => cases hf
      · match i with
        | 0 => cases hf; cases hg; simp
        | 1 => cases hf; cases hg; simp
        | i + 2 => cases hf

theorem pair_finite {a : GoVal} (ha : a = .nil ∨ a = .ptr (.float 1)) (p : Prim) (f : F64)
    (h : Written Γ2 (.named 1) (pairs a (.float 5)) (.prim p) (.float f)) : ¬ Nonfinite f := by
  have h := pair_floats ha h
  simp [pairs] at h
  rcases h with ⟨-, rfl⟩ | ⟨-, rfl⟩ <;> (unfold Nonfinite; decide)

set_option maxRecDepth 200000 in
/-- the hypotheses can be met: what `MarshalJSON` writes for `Pairs{L: []Pair{{A: nil, B: 5}}}` no
decoder takes -/
example {m : Nat} {r r' : GoVal} {e : Option Err} (hu : Unmarshals Γ2 m (str "{\"l\":[{\"a\":null\"b\":5}]}") r e r') :
    e = some ⟨none, .notJSON⟩ ∧ r' = r := by
  exact C65_own_output_refused floatTexts enc_package2 noDoc_unique compact2 (n := 1) (by decide) (pairs_typed (b := 5) (.nilPtr _))
    (pair_finite (.inl rfl)) comma_trouble ⟨5, rfl⟩ hu

set_option maxRecDepth 200000 in
/-- the same by `C65_not_json_refused` -/
example {m : Nat} {r r' : GoVal} {e : Option Err} (hu : Unmarshals Γ2 m (str "{\"l\":[{\"a\":null\"b\":5}]}") r e r') :
    e = some ⟨none, .notJSON⟩ ∧ r' = r :=
  C65_not_json_refused floatTexts enc_package2 noDoc_unique compact2 (n := 1) (by decide) (pairs_typed (b := 5) (.nilPtr _))
    (pair_finite (.inl rfl)) ⟨5, rfl⟩ (C21_trouble_not_json floatTexts enc_package2 noDoc_unique compact2 (n := 1) (by decide)
      (pairs_typed (.nilPtr _)) comma_trouble ⟨5, rfl⟩) hu

set_option maxRecDepth 200000 in
/-- the hypotheses of `C65_accepted_is_json` can be met -/
example : ∃ jv, Document jv (str "{\"l\":[{\"a\":1,\"b\":5}]}") := by
  have h : ∃ r', Fills Γ2 1 (.obj [(str "l", .arr [.obj [(str "a", .num (str "1")), (str "b", .num (str "5"))]])]) (.struct [.nil]) none r' :=
    ⟨_, 5, rfl⟩
  obtain ⟨r', h⟩ := h
  have hp : parseBytes (str "{\"l\":[{\"a\":1,\"b\":5}]}") = some (.obj [(str "l", .arr [.obj [(str "a", .num (str "1")), (str "b", .num (str "5"))]])]) :=
    sameDoc_eq (by decide +kernel)
  have hm : Marshals Γ2 1 (some (pairs (.ptr (.float 1)) (.float 5))) (.ok (str "{\"l\":[{\"a\":1,\"b\":5}]}")) := ⟨5, rfl⟩
  exact C65_accepted_is_json floatTexts enc_package2 noDoc_unique compact2 (n := 1) (by decide)
    (pairs_typed (b := 5) (.ptr (.prim (.float64 1)))) (pair_finite (.inr rfl)) hm ((unmarshals_loose (parseBytes_iff.1 hp)).2 h)

set_option maxRecDepth 200000 in
/-- **C65**: a text that is not JSON for its floats is accepted: `MarshalJSON` writes
`{"l":[{"a":1,"b":+Inf}]}`, which is not JSON, and the parser reads it -/
theorem C65_infinities_pass : Marshals Γ2 1 (some (pairs (.ptr (.float 1)) (.float 0x7FF0000000000000))) (.ok (str "{\"l\":[{\"a\":1,\"b\":+Inf}]}")) ∧
    (¬ ∃ jv, Document jv (str "{\"l\":[{\"a\":1,\"b\":+Inf}]}")) ∧
    LooseDocument (.obj [(str "l", .arr [.obj [(str "a", .num (str "1")), (str "b", .num (str "+Inf"))]])]) (str "{\"l\":[{\"a\":1,\"b\":+Inf}]}") :=
  ⟨⟨5, rfl⟩, C21_trouble_not_json floatTexts enc_package2 noDoc_unique compact2 (n := 1) (by decide)
    (pairs_typed (.ptr (.prim (.float64 _)))) inf_trouble ⟨5, rfl⟩, parseBytes_iff.1 (sameDoc_eq (by decide +kernel))⟩

end Examples
end VJ
