import Verif.Proof.Trim
import Verif.Props.Encode

/-!
# C50: spare capacity is invisible to the encoder and to `IsZero`
-/

namespace VJ

section
variable [Ext] {Γ : Env}

/-- **The text depends on the visible part of the value only**: two values that differ only beyond the length
of their slices, at any depth, are encoded alike (same text, or same error). -/
theorem C50_text (hΓ : SpareBlind Γ) {n : Nat} {v v' : GoVal} (h : SameVisible v v') {r : Except EErr Str} :
    Marshals Γ n (some v) r ↔ Marshals Γ n (some v') r := by
  have key : ∀ k, marshalJSON (Γ.methods k n) (some v) = marshalJSON (Γ.methods k n) (some v') := by
    intro k
    have hb := methods_blind hΓ k
    rw [← marshalJSON_trim v fun w => hb.marshalTo n v w, ← marshalJSON_trim v' fun w => hb.marshalTo n v' w, h]
  simp only [Marshals, key]

/-- **Appending too**, to any writer. -/
theorem C50_append (hΓ : SpareBlind Γ) {n : Nat} {v v' : GoVal} (h : SameVisible v v') {w w' : W} {e : Option EErr} :
    MarshalsTo Γ n (some v) w e w' ↔ MarshalsTo Γ n (some v') w e w' := by
  have key : ∀ k, (Γ.methods k n).marshalTo (some v) w = (Γ.methods k n).marshalTo (some v') w := by
    intro k
    have hb := methods_blind hΓ k
    rw [← hb.marshalTo n v w, ← hb.marshalTo n v' w, h]
  simp only [MarshalsTo, key]

/-- **`IsZero` too.** -/
theorem C50_isZero (hΓ : SpareBlind Γ) {n : Nat} {v v' : GoVal} (h : SameVisible v v') {b : Bool} :
    IsZeroIs Γ n v b ↔ IsZeroIs Γ n v' b := by
  have key : ∀ k, (Γ.methods k n).isZero v = (Γ.methods k n).isZero v' := by
    intro k
    have hb := methods_blind hΓ k
    rw [← hb.isZero n v, ← hb.isZero n v', h]
  simp only [IsZeroIs, key]

end

namespace Examples
open Sample
attribute [local instance] Sample.ext

theorem sample_spareBlind : SpareBlind Γ := ⟨fun _ _ _ _ _ _ => rfl, fun _ _ _ _ _ => rfl⟩

/-- two values that differ in spare capacity, one of them inside the other's spare capacity -/
def roomy : GoVal := .struct [.slice [.struct [.int 1]] [.struct [.int 8], .struct [.int 9]]]
def tight : GoVal := .struct [.slice [.struct [.int 1]] []]

theorem roomy_tight : SameVisible roomy tight ∧ roomy ≠ tight := by
  refine ⟨?_, by simp [roomy, tight]⟩
  simp [SameVisible, roomy, tight, GoVal.trim, trimAll]

/-- both are written as {"l":[{"rev":1}]} -/
example : Marshals Γ 54 (some roomy) (.ok (str "{\"l\":[{\"rev\":1}]}")) :=
  (C50_text sample_spareBlind roomy_tight.1).2 ⟨4, rfl⟩

example (w : W) (e : Option EErr) (w' : W) : MarshalsTo Γ 54 (some roomy) w e w' ↔ MarshalsTo Γ 54 (some tight) w e w' :=
  C50_append sample_spareBlind roomy_tight.1

/-- an empty slice with room is as zero as an empty one without -/
example : IsZeroIs Γ 24 (.slice [] [.int 3]) true :=
  (C50_isZero sample_spareBlind (v' := .slice [] []) (by simp [SameVisible, GoVal.trim])).2 ⟨3, rfl⟩

end Examples
end VJ
