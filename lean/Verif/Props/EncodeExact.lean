import Verif.Proof.EncodeBadSound
import Verif.Props.EncodeSamples

/-!
# C21: exactly which values become invalid JSON

`Spec/EncodeExact.lean` says what goes wrong (`Trouble`): somewhere in what is written there is
a float that is not finite, a struct that lacks a comma after nil pointers, or an embedded
struct with nothing in it.
-/

namespace VJ
set_option linter.unusedSectionVars false

section
variable [Ext] {Γ : Env} {X : Nat → GoVal → Prop} {S : Nat → Prop} {F : Nat → Option GoVal → JV → Prop}

/-- **C21, the converse**: of a value with trouble in it, `MarshalJSON` makes a text that is no
JSON document, whatever surrounds the trouble. -/
theorem C21_trouble_not_json (hN : FloatTexts) (hP : EncPackage Γ F S) (hF : ∀ n r a b, F n r a → F n r b → a = b)
    (hC : CompactForeign Γ S) {n : Nat} (hn : S n) {v : GoVal} (hv : HasType Γ X (.named n) v) (ht : Trouble Γ F (.named n) v) {s : Str}
    (h : Marshals Γ n (some v) (.ok s)) : ¬ ∃ jv, Document jv s := by
  obtain ⟨e, w, ⟨k, hk⟩, he⟩ := marshals_iff.1 h
  cases e with
  | some e => cases he
  | none =>
    let : Nans := ⟨true⟩
    obtain ⟨s', rfl, h2⟩ := methods_bad hN hP hF hC k n v W.empty w hn hv (.inl rfl) ht rfl hk
    cases he
    exact h2.rejected.not_json

/-- **C21, exact**: what `MarshalJSON` returns is JSON if and only if there is no trouble in the
value. -/
theorem C21_exact (hN : FloatTexts) (hP : EncPackage Γ F S) (hF : ∀ n r a b, F n r a → F n r b → a = b) (hC : CompactForeign Γ S)
    {n : Nat} (hn : S n) {v : GoVal} (hv : HasType Γ X (.named n) v) {s : Str} (h : Marshals Γ n (some v) (.ok s)) :
    (∃ jv, Document jv s) ↔ ¬ Trouble Γ F (.named n) v := by
  constructor
  · intro h1 ht
    exact C21_trouble_not_json hN hP hF hC hn hv ht h h1
  · intro ht
    obtain ⟨jv, -, h1⟩ := encode_document hP hn hv ((fine_iff hN).2 ht) h
    exact ⟨jv, [], s, [], by simp, ws_nil, ws_nil, h1⟩

end

/-! ### samples -/

namespace Sample

/-- type Pair struct { A *float64 `json:"a"`; B float64 `json:"b"` }; type Pairs struct { L []Pair `json:"l"` } -/
def Γ2 : Env where
  decl n := match n with
    | 0 => some (.struct false [⟨.star (.prim .float64), tag "a"⟩, ⟨.prim .float64, tag "b"⟩])
    | 1 => some (.struct false [⟨.slice (.named 0), tag "l"⟩])
    | _ => none
  ext _ := .unsupp

end Sample

namespace Examples
open Sample
attribute [local instance] Sample.ext

theorem enc_package2 : EncPackage Γ2 noDoc (· ∈ [0, 1]) where
  closed n d t m hn hd ht hm := by
    have h : ∀ n ∈ [0, 1], ∀ d ∈ Γ2.decl n, ∀ t ∈ d.types, ∀ m ∈ t.names, m ∈ [0, 1] := by decide
    exact h n hn d hd t ht m hm
  noAnon n d t hn hd ht := by
    have h : ∀ n ∈ [0, 1], ∀ d ∈ Γ2.decl n, ∀ t ∈ d.types, t.anon = false := by decide
    exact h n hn d hd t ht
  sels n d t m hn hd ht hm := by
    have h : ∀ n ∈ [0, 1], ∀ d ∈ Γ2.decl n, ∀ t ∈ d.types, t.sels = [] := by decide
    rw [h n hn d hd t ht] at hm; cases hm
  keys n strict fields fd hn hd hf := by
    have h : ∀ n ∈ [0, 1], ∀ d ∈ Γ2.decl n, (match d with | .struct _ fields => fields.all (fun fd => plainb fd.tags.jsonName) | _ => true) = true := by
      decide
    exact plainb_iff (List.all_eq_true.1 (h n hn _ hd) fd hf)
  times tm := fmtTime_plain [] tm
  timeTexts tm s h := by cases h; exact fmtTime_plain [] tm
  layouts _ _ _ _ _ _ _ := ⟨fun tm => fmtTime_plain [] tm, fmtTime_plain [] _⟩
  foreign n r w w' hn hd hw h := by cases h
  tame n r hd := .unsupp

theorem compact2 {S : Nat → Prop} : CompactForeign Γ2 S := by
  intro n r w s _ hd _ hr
  cases hr

/-- `Pairs{L: []Pair{{A: a, B: b}}}` -/
def pairs (a b : GoVal) : GoVal := .struct [.slice [.struct [a, b]] []]

theorem pairs_typed {a : GoVal} {b : F64} (ha : HasType Γ2 NoForeign (.star (.prim .float64)) a) :
    HasType Γ2 NoForeign (.named 1) (pairs a (.float b)) := by
  refine .struct (n := 1) (.named 1) rfl rfl ?_
  intro i fd g hf hg
  match i with
  | 0 =>
    cases hf; cases hg
    refine .slice (by simp) ?_ (by simp)
    intro c hc
    cases List.mem_singleton.1 hc
    refine .struct (n := 0) (.named 0) rfl rfl ?_
    intro i fd g hf hg
    match i with
    | 0 => cases hf; cases hg; exact ha
    | 1 => cases hf; cases hg; exact .prim (.float64 _)
    | i + 2 => cases hf
  | i + 1 => cases hf

/-- the pair is written -/
theorem pair_written (a b : GoVal) : Written Γ2 (.named 1) (pairs a b) (.named 0) (.struct [a, b]) := by
  refine .slice (es := [.struct [a, b]]) (sp := []) (t := .named 0) ?_ (by simp)
  refine .field (i := 0) (gs := [.slice [.struct [a, b]] []]) (fd := ⟨.slice (.named 0), tag "l"⟩) .self (.named 1) rfl rfl rfl ?_
  rintro ⟨k, hk, -, h | ⟨⟨n, rfl⟩, h⟩⟩ <;> cases h

/-- there is trouble: the first field is a nil pointer, and the second is written -/
theorem comma_trouble : Trouble Γ2 noDoc (.named 1) (pairs .nil (.float 5)) := by
  have hk : FieldKind Γ2 (.star (.prim .float64)) .ptr := .ptr (.self _)
  refine .inr ⟨_, 0, _, _, _, pair_written .nil (.float 5), .named 0, rfl, .inl ⟨0, 1, _, _, _, _, by decide, rfl, rfl, rfl, rfl, ?_, ?_, ?_⟩⟩
  · rintro ⟨_, _, _, h | ⟨_, h⟩⟩ <;> cases h
  · rintro ⟨_, _, _, h | ⟨_, h⟩⟩ <;> cases h
  · intro l fl gl hl hf hg _
    match l, hl with
    | 0, _ => cases hf; cases hg; exact ⟨rfl, .ptr, hk, .ptr, .inl rfl⟩

/-- there is trouble: infinity -/
theorem inf_trouble : Trouble Γ2 noDoc (.named 1) (pairs (.ptr (.float 1)) (.float 0x7FF0000000000000)) := by
  refine .inl ⟨.float64, 0x7FF0000000000000, ?_, by unfold Nonfinite; decide⟩
  refine .field (i := 1) (pair_written _ _) (.named 0) rfl rfl rfl ?_
  rintro ⟨_, _, _, h | ⟨_, h⟩⟩ <;> cases h

set_option maxRecDepth 200000 in
/-- the hypotheses of the converse can be met, deep in a document … -/
example : ¬ ∃ jv, Document jv (str "{\"l\":[{\"a\":null\"b\":5}]}") :=
  C21_trouble_not_json floatTexts enc_package2 noDoc_unique compact2 (n := 1) (by decide) (pairs_typed (.nilPtr _)) comma_trouble ⟨5, rfl⟩

set_option maxRecDepth 200000 in
/-- … also by a float -/
example : ¬ ∃ jv, Document jv (str "{\"l\":[{\"a\":1,\"b\":+Inf}]}") :=
  C21_trouble_not_json floatTexts enc_package2 noDoc_unique compact2 (n := 1) (by decide)
    (pairs_typed (.ptr (.prim (.float64 _)))) inf_trouble ⟨5, rfl⟩

/-- a value without trouble -/
theorem calm_pair : ¬ Trouble Γ2 noDoc (.named 1) (pairs (.ptr (.float 1)) (.float 5)) := by
  have fl : ∀ f : F64, f = 1 ∨ f = 5 → ¬ Nonfinite f := by
    rintro f (rfl | rfl) <;> (unfold Nonfinite; decide)
  intro h
  rcases h.front with ⟨_, _, h, _⟩ | ⟨m, strict, fields, gs, hv, hm, hd, h⟩ | ⟨u, g, hs, h⟩
  · cases h
  · cases hm; cases hd; cases hv
    rcases h with ⟨i, j, _, _, _, _, hij, _, _, hj, _⟩ | ⟨i, fd, g, hi, hg, he, _⟩
    · match j with
      | 0 => omega
      | j + 1 => cases hj
    · match i with
      | 0 => cases hi; cases he
      | i + 1 => cases hi
  · cases hs with
    | «alias» he hd => cases he; cases hd
    | @field _ _ i _ _ _ _ _ he hd hf hg ho =>
      cases he; cases hd
      match i with
      | i + 1 => cases hf
      | 0 =>
        cases hf; cases hg
        obtain ⟨es, sp, hv, v, hm, h⟩ := h.slice
        cases hv
        cases List.mem_singleton.1 hm
        rcases h.front with ⟨_, _, h, _⟩ | ⟨m, strict, fields, gs, hv, hm, hd, h⟩ | ⟨u, g, hs, h⟩
        · cases h
        · cases hm; cases hd; cases hv
          rcases h with ⟨i, j, _, _, _, _, hij, hi, hgi, hj, hgj, ho, _, hall⟩ | ⟨i, fd, g, hi, hg, he, _⟩
          · match j with
            | 0 => omega
            | j + 1 =>
              obtain ⟨-, k, hk, he, -⟩ := hall 0 ⟨.star (.prim .float64), tag "a"⟩ (.ptr (.float 1)) (by omega) rfl rfl (by
                rintro ⟨_, _, _, h | ⟨_, h⟩⟩ <;> cases h)
              cases fieldKind_unique hk (.ptr (.self _))
              cases he
          · match i with
            | 0 => cases hi; cases he
            | 1 => cases hi; cases he
            | i + 2 => cases hi
        · cases hs with
          | «alias» he hd => cases he; cases hd
          | @field _ _ i _ _ _ _ _ he hd hf hg ho =>
            cases he; cases hd
            match i with
            | 0 =>
              cases hf; cases hg
              obtain ⟨v, hv, h⟩ := h.star
              cases hv
              obtain ⟨f, hf, h⟩ := trouble_prim h
              cases hf
              exact fl 1 (.inl rfl) h
            | 1 =>
              cases hf; cases hg
              obtain ⟨f, hf, h⟩ := trouble_prim h
              cases hf
              exact fl 5 (.inr rfl) h
            | i + 2 => cases hf

set_option maxRecDepth 200000 in
/-- what is written for it is JSON -/
example : ∃ jv, Document jv (str "{\"l\":[{\"a\":1,\"b\":5}]}") :=
  (C21_exact floatTexts enc_package2 noDoc_unique compact2 (n := 1) (by decide) (pairs_typed (.ptr (.prim (.float64 _)))) ⟨5, rfl⟩).2
    calm_pair

end Examples
end VJ
