import Verif.Spec.Fields
import Verif.Model.Json
import Verif.Model.Types

/-!
# Decimal integers: printing and parsing are inverse
-/

namespace VJ

theorem digitChar_toNat {d : Nat} (h : d < 10) : (digitChar d).toNat = 48 + d := by
  have : d = 0 ∨ d = 1 ∨ d = 2 ∨ d = 3 ∨ d = 4 ∨ d = 5 ∨ d = 6 ∨ d = 7 ∨ d = 8 ∨ d = 9 := by omega
  rcases this with rfl|rfl|rfl|rfl|rfl|rfl|rfl|rfl|rfl|rfl <;> rfl

theorem isDigit_digitChar {d : Nat} (h : d < 10) : isDigit (digitChar d) = true := by
  unfold isDigit; rw [digitChar_toNat h]; simp; omega

theorem digitVal_digitChar {d : Nat} (h : d < 10) : digitVal (digitChar d) = d := by
  unfold digitVal; rw [digitChar_toNat h]; omega

theorem parseDigits_append : ∀ (s t : Str) (acc : Nat),
    parseDigits acc (s ++ t) = (parseDigits acc s).bind fun n => parseDigits n t
  | [], t, acc => rfl
  | c :: s, t, acc => by
    simp only [List.cons_append, parseDigits]
    split
    · exact parseDigits_append s t _
    · rfl

theorem natStrAux_spec : ∀ (fuel n : Nat), n < fuel →
    parseDigits 0 (natStrAux fuel n) = some n ∧ natStrAux fuel n ≠ [] ∧ ∀ c ∈ natStrAux fuel n, isDigit c = true
  | 0, n, h => by omega
  | fuel + 1, n, h => by
    simp only [natStrAux]
    split
    · rename_i hn
      refine ⟨?_, by simp, ?_⟩
      · simp [parseDigits, isDigit_digitChar hn, digitVal_digitChar hn]
      · intro c hc; simp at hc; subst hc; exact isDigit_digitChar hn
    · rename_i hn
      have ih := natStrAux_spec fuel (n / 10) (by omega)
      have hm : n % 10 < 10 := Nat.mod_lt _ (by omega)
      refine ⟨?_, by simp, ?_⟩
      · rw [parseDigits_append, ih.1]
        simp [parseDigits, isDigit_digitChar hm, digitVal_digitChar hm]
        omega
      · intro c hc
        rcases List.mem_append.1 hc with hc | hc
        · exact ih.2.2 c hc
        · simp at hc; subst hc; exact isDigit_digitChar hm

theorem natStr_spec (n : Nat) : parseDigits 0 (natStr n) = some n ∧ natStr n ≠ [] ∧ ∀ c ∈ natStr n, isDigit c = true :=
  natStrAux_spec (n + 1) n (by omega)

theorem parseNat_natStr (n : Nat) : parseNat (natStr n) = some n := by
  have h := natStr_spec n
  unfold parseNat
  split
  · rename_i hn; exact absurd hn h.2.1
  · exact h.1

theorem parseInt_of_digits {s : Str} (h : ∀ c ∈ s, isDigit c = true) : parseInt s = (parseNat s).map fun (n : Nat) => (n : Int) := by
  unfold parseInt
  split
  · rename_i cs
    have := h '-' (by simp)
    simp [isDigit] at this
  · rfl

theorem parseInt_intStr (i : Int) : parseInt (intStr i) = some i := by
  cases i with
  | ofNat n =>
    simp only [intStr]
    rw [parseInt_of_digits (natStr_spec n).2.2, parseNat_natStr]; rfl
  | negSucc n =>
    simp only [intStr, parseInt, parseNat_natStr]
    rfl

theorem natStr_injective {m n : Nat} (h : natStr m = natStr n) : m = n := by
  have := parseNat_natStr m
  rw [h, parseNat_natStr] at this
  exact (Option.some.inj this).symm

theorem getInt_intStr {i : Int} (h1 : -(2^63) ≤ i) (h2 : i < 2^63) : JV.getInt (.num (intStr i)) = .ok i := by
  simp only [JV.getInt, parseInt_intStr]
  rw [if_pos ⟨h1, h2⟩]

theorem getUint_intStr {i : Int} (h1 : 0 ≤ i) (h2 : i < 2^64) : JV.getUint (.num (intStr i)) = .ok i := by
  cases i with
  | ofNat n =>
    simp only [JV.getUint, intStr, parseNat_natStr]
    rw [if_pos]
    · rfl
    · rw [Int.ofNat_eq_natCast] at h2
      omega
  | negSucc n => omega

/-! ### ranges of the integer types -/

theorem Prim.wrap_inRange {p : Prim} {i : Int} (h : p.inRange i) : p.wrap i = i := by
  cases p <;> simp only [Prim.inRange] at h <;> simp only [Prim.wrap] <;>
    first
      | rfl
      | (rw [Int.bmod_def]; simp only [Nat.reducePow] ; split <;> omega)
      | omega

theorem Prim.wrap_range {p : Prim} (i : Int) : p.inRange (p.wrap i) := by
  cases p <;> simp only [Prim.inRange, Prim.wrap] <;>
    first
      | trivial
      | (rw [Int.bmod_def]; simp only [Nat.reducePow] ; split <;> omega)
      | omega

end VJ
