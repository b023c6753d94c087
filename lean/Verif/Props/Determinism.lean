import Verif.Proof.Mono
import Verif.Spec.Api
import Verif.Props.Sample

/-!
# A call of a generated method has at most one outcome

The relations of `Spec/Api.lean` are functional: the bound on nested calls in the model
never decides a result.
-/

namespace VJ

section
variable [Ext]

theorem fills_unique {Γ : Env} {n : Nat} {v : JV} {s s1 s2 : GoVal} {e1 e2 : Option Err}
    (h1 : Fills Γ n v s e1 s1) (h2 : Fills Γ n v s e2 s2) : e1 = e2 ∧ s1 = s2 := by
  obtain ⟨k1, h1⟩ := h1
  obtain ⟨k2, h2⟩ := h2
  have a := ((methods_mono Γ (Nat.le_max_left k1 k2) n).fill v s).eq_of_ok h1
  have b := ((methods_mono Γ (Nat.le_max_right k1 k2) n).fill v s).eq_of_ok h2
  rw [a] at b
  simpa using b

theorem fillsTo_unique {Γ : Env} {n : Nat} {v : JV} {s : GoVal} {r1 r2 : Out (Option Err × GoVal)}
    (h1 : FillsTo Γ n v s r1) (h2 : FillsTo Γ n v s r2) : r1 = r2 := by
  obtain ⟨l1, k1, h1⟩ := h1
  obtain ⟨l2, k2, h2⟩ := h2
  have a := ((methods_mono Γ (Nat.le_max_left k1 k2) n).fill v s).eq_of_ne (by rw [h1]; exact l1)
  have b := ((methods_mono Γ (Nat.le_max_right k1 k2) n).fill v s).eq_of_ne (by rw [h2]; exact l2)
  rw [← h1, ← h2, ← a, ← b]

theorem marshalsTo_unique {Γ : Env} {n : Nat} {r : Option GoVal} {w w1 w2 : W} {e1 e2 : Option EErr}
    (h1 : MarshalsTo Γ n r w e1 w1) (h2 : MarshalsTo Γ n r w e2 w2) : e1 = e2 ∧ w1 = w2 := by
  obtain ⟨k1, h1⟩ := h1
  obtain ⟨k2, h2⟩ := h2
  have a := ((methods_mono Γ (Nat.le_max_left k1 k2) n).marshalTo r w).eq_of_ok h1
  have b := ((methods_mono Γ (Nat.le_max_right k1 k2) n).marshalTo r w).eq_of_ok h2
  rw [a] at b
  simpa using b

theorem isZero_unique {Γ : Env} {n : Nat} {v : GoVal} {b1 b2 : Bool}
    (h1 : IsZeroIs Γ n v b1) (h2 : IsZeroIs Γ n v b2) : b1 = b2 := by
  obtain ⟨k1, h1⟩ := h1
  obtain ⟨k2, h2⟩ := h2
  have a := ((methods_mono Γ (Nat.le_max_left k1 k2) n).isZero v).eq_of_ok h1
  have b := ((methods_mono Γ (Nat.le_max_right k1 k2) n).isZero v).eq_of_ok h2
  rw [a] at b
  simpa using b

theorem reset_unique {Γ : Env} {n : Nat} {v v1 v2 : GoVal}
    (h1 : ResetsTo Γ n v v1) (h2 : ResetsTo Γ n v v2) : v1 = v2 := by
  obtain ⟨k1, h1⟩ := h1
  obtain ⟨k2, h2⟩ := h2
  have a := ((methods_mono Γ (Nat.le_max_left k1 k2) n).reset v).eq_of_ok h1
  have b := ((methods_mono Γ (Nat.le_max_right k1 k2) n).reset v).eq_of_ok h2
  rw [a] at b
  simpa using b

theorem zero_unique {Γ : Env} {n : Nat} {z1 z2 : GoVal} (h1 : ZeroIs Γ n z1) (h2 : ZeroIs Γ n z2) : z1 = z2 := by
  obtain ⟨k1, h1⟩ := h1
  obtain ⟨k2, h2⟩ := h2
  have a := (methods_mono Γ (Nat.le_max_left k1 k2) n).zero.eq_of_ok h1
  have b := (methods_mono Γ (Nat.le_max_right k1 k2) n).zero.eq_of_ok h2
  rw [a] at b
  simpa using b

theorem marshals_iff {Γ : Env} {n : Nat} {r : Option GoVal} {out : Except EErr Str} :
    Marshals Γ n r out ↔ ∃ e w, MarshalsTo Γ n r W.empty e w ∧
      out = (match e with | some e => .error e | none => w.build) := by
  constructor
  · rintro ⟨k, h⟩
    unfold marshalJSON at h
    obtain ⟨⟨e, w⟩, h1, h2⟩ := Out.bind_eq_ok.1 h
    refine ⟨e, w, ⟨k, h1⟩, ?_⟩
    cases e <;> simpa using h2.symm
  · rintro ⟨e, w, ⟨k, h⟩, rfl⟩
    refine ⟨k, ?_⟩
    simp only [marshalJSON, h, Out.ok_bind]
    cases e <;> rfl

theorem marshals_unique {Γ : Env} {n : Nat} {r : Option GoVal} {o1 o2 : Except EErr Str}
    (h1 : Marshals Γ n r o1) (h2 : Marshals Γ n r o2) : o1 = o2 := by
  obtain ⟨e1, w1, g1, rfl⟩ := marshals_iff.1 h1
  obtain ⟨e2, w2, g2, rfl⟩ := marshals_iff.1 h2
  obtain ⟨rfl, rfl⟩ := marshalsTo_unique g1 g2
  rfl

end

attribute [local instance] Sample.ext

/-- the sample call has an outcome -/
example : ∃ e s', Fills Sample.Γ 0 Sample.ann Sample.used e s' := ⟨_, _, Sample.ann_fills⟩

end VJ
