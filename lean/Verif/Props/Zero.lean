import Verif.Proof.Zero
import Verif.Props.Determinism
import Verif.Props.Total

/-!
# C34: `IsZero`
-/

namespace VJ
set_option linter.unusedSectionVars false

section
variable [Ext]

/-- **C34, partial** (no fixed-length arrays as struct fields, no named arrays of types with
their own `IsZero`, and values without `-0`, zero instants in other zones or empty collections
that are not nil): `IsZero` returns, and returns true if and only if the value is the zero
value of the type. -/
theorem C34_isZero_partial {Γ : Env} {X : Nat → GoVal → Prop} {S : Nat → Prop} (hP : ZeroPackage Γ X S) (hA : NoArrayTests Γ S)
    {n : Nat} (hn : S n) {v : GoVal} (hv : HasType Γ X (.named n) v) (ht : ¬ Untidy v) :
    ∃ b, IsZeroIs Γ n v b ∧ (b = true ↔ ZeroIs Γ n v) := by
  obtain ⟨k, b, h1, h2⟩ := (isZero_term hP hA hv n (.named n) hn).ok
  exact ⟨b, ⟨k, h1⟩, fun hb => h2.tidy hb ht, h2.zero⟩

/-- **C34, the zero value**: whatever it contains, the zero value is zero. -/
theorem C34_zero_value_partial {Γ : Env} {X : Nat → GoVal → Prop} {S : Nat → Prop} (hP : ZeroPackage Γ X S) (hA : NoArrayTests Γ S)
    {n : Nat} (hn : S n) {z : GoVal} (hz : HasType Γ X (.named n) z) (h : ZeroIs Γ n z) : IsZeroIs Γ n z true := by
  obtain ⟨k, b, h1, h2⟩ := (isZero_term hP hA hz n (.named n) hn).ok
  rw [h2.zero h] at h1
  exact ⟨k, h1⟩

/-- **C34, the other values**: if `IsZero` says true, the value is the zero value or differs
from it in one of the ways listed in `Untidy`. -/
theorem C34_true_partial {Γ : Env} {X : Nat → GoVal → Prop} {S : Nat → Prop} (hP : ZeroPackage Γ X S) (hA : NoArrayTests Γ S)
    {n : Nat} (hn : S n) {v : GoVal} (hv : HasType Γ X (.named n) v) (h : IsZeroIs Γ n v true) : ZeroIs Γ n v ∨ Untidy v := by
  obtain ⟨k, b, h1, h2⟩ := (isZero_term hP hA hv n (.named n) hn).ok
  have := isZero_unique h ⟨k, h1⟩
  subst this
  exact (Classical.em (Untidy v)).elim Or.inr fun ht => Or.inl (h2.tidy rfl ht)

/-- what is not zero is never said to be zero, unless it is untidy; the two outcomes exclude
each other -/
theorem C34_false_partial {Γ : Env} {X : Nat → GoVal → Prop} {S : Nat → Prop} (hP : ZeroPackage Γ X S) (hA : NoArrayTests Γ S)
    {n : Nat} (hn : S n) {v : GoVal} (hv : HasType Γ X (.named n) v) (h : IsZeroIs Γ n v false) : ¬ ZeroIs Γ n v := by
  intro hz
  have := isZero_unique h (C34_zero_value_partial hP hA hn hv hz)
  cases this

end

namespace Examples
open Sample
attribute [local instance] Sample.ext

/-- the computation returned normally -/
def isOk {α : Type} : Out α → Bool
  | .ok _ => true
  | _ => false

/-- the types of the sample package that meet the hypotheses -/
def zeroNames : List Nat := [0, 1, 2, 3, 4, 5, 20, 21, 22, 24, 25, 26, 27, 28, 30, 31, 32, 33, 35, 36, 37, 38, 39]

set_option maxRecDepth 200000 in
theorem zero_package : ZeroPackage Γ NoForeign (· ∈ zeroNames) where
  closed n d t m hn hd ht hm := by
    have h : ∀ n ∈ zeroNames, ∀ d ∈ Γ.decl n, ∀ t ∈ d.types, ∀ m ∈ t.names, m ∈ zeroNames := by decide
    exact h n hn d hd t ht m hm
  generated n d hn hd := by
    have h : ∀ n ∈ zeroNames, ∀ d ∈ Γ.decl n, isOk (genZero Γ 5 d) = true := by decide
    have := h n hn d hd
    cases hg : genZero Γ 5 d with
    | ok ir => exact ⟨5, ir, hg⟩
    | _ => rw [hg] at this; cases this
  foreign n v hn hd hx := hx.elim

set_option maxRecDepth 200000 in
theorem zero_noArrays : NoArrayTests Γ (· ∈ zeroNames) := by
  constructor
  · intro n strict fields fd len t hn hd hf ht
    have h : ∀ n ∈ zeroNames, ∀ d ∈ Γ.decl n, (match d with | .struct _ fields => fields.all (fun fd => !fd.typ.isFixedArray) | _ => true) = true := by decide
    have := List.all_eq_true.1 (h n hn _ hd) fd hf
    rw [ht] at this
    cases this
  · intro n len t hn hd
    have h : ∀ n ∈ zeroNames, ∀ d ∈ Γ.decl n, (match d with | .alias (.array _ t) => t.isOrdinal | _ => true) = true := by decide
    have := h n hn _ hd
    cases t with
    | prim p => exact .prim p
    | _ => cases this

/-- the zero value of a struct with a struct in it … -/
example : ZeroIs Γ 3 (.struct [.struct [.int 0], .struct [.int 0, .str [], .nil, .nil, .int 0, .str []], .time ⟨0, 0⟩]) := ⟨5, rfl⟩
/-- … and that the receiver used before is not zero -/
example : ∃ b, IsZeroIs Γ 0 used b ∧ (b = true ↔ ZeroIs Γ 0 used) :=
  C34_isZero_partial zero_package zero_noArrays (by decide) used_typed (by
    rintro h
    cases h with
    | struct hv h =>
      simp at hv
      rcases hv with rfl | rfl | rfl | rfl | rfl | rfl <;> cases h)

/-- C34 fails for a struct with a fixed-length array: its zero value is not zero -/
theorem C34_array_field_never_zero : ZeroIs Γ 34 (.struct [.arr [.int 0, .int 0]]) ∧ IsZeroIs Γ 34 (.struct [.arr [.int 0, .int 0]]) false :=
  ⟨⟨5, rfl⟩, ⟨5, rfl⟩⟩

/-- C34 fails for a named array of structs: the test is the wrong way round -/
theorem C34_named_array_inverted : ZeroIs Γ 40 (.arr [.struct [.int 0], .struct [.int 0]]) ∧
    IsZeroIs Γ 40 (.arr [.struct [.int 0], .struct [.int 0]]) false ∧ IsZeroIs Γ 40 (.arr [.struct [.int 1], .struct [.int 2]]) true :=
  ⟨⟨5, rfl⟩, ⟨5, rfl⟩, ⟨5, rfl⟩⟩

/-- C34 fails for a named slice that is empty but not nil -/
theorem C34_empty_slice : ZeroIs Γ 24 .nil ∧ IsZeroIs Γ 24 (.slice [] []) true := ⟨⟨5, rfl⟩, ⟨5, rfl⟩⟩

end Examples

end VJ
