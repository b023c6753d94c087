import Verif.Proof.Num
import Verif.Spec.Decode

/-!
# Number tokens and integer conversion against their specification
-/

namespace VJ

theorem isDigit_iff {c : Char} (h : isDigit c = true) : c = Char.ofNat (48 + digitVal c) ∧ digitVal c < 10 := by
  simp only [isDigit, Bool.and_eq_true, decide_eq_true_eq] at h
  refine ⟨?_, by unfold digitVal; omega⟩
  unfold digitVal
  rw [show 48 + (c.toNat - 48) = c.toNat by omega]
  exact (Char.ofNat_toNat c).symm

theorem parseDigits_snoc (s : Str) (c : Char) (acc : Nat) :
    parseDigits acc (s ++ [c]) = (parseDigits acc s).bind fun n => if isDigit c then some (n * 10 + digitVal c) else none := by
  rw [parseDigits_append]
  rfl

theorem DecNat.parse {s : Str} {n : Nat} (h : DecNat s n) : parseDigits 0 s = some n ∧ s ≠ [] := by
  induction h with
  | one h =>
    refine ⟨?_, by simp⟩
    rename_i d
    have h1 := isDigit_digitChar h
    have h2 := digitVal_digitChar h
    simp only [digitChar] at h1 h2
    simp [parseDigits, h1, h2]
  | more hs h ih =>
    refine ⟨?_, by simp⟩
    have h1 := isDigit_digitChar h
    have h2 := digitVal_digitChar h
    simp only [digitChar] at h1 h2
    rw [parseDigits_snoc, ih.1]
    simp only [Option.bind_some, h1, h2, if_true, Option.some.injEq]
    omega

theorem DecNat.of_parse : ∀ (k : Nat) {s : Str} {n : Nat}, s.length = k → s ≠ [] → parseDigits 0 s = some n → DecNat s n
  | 0, s, n, hl, hne, _ => absurd (List.length_eq_zero_iff.1 hl) hne
  | k + 1, s, n, hl, hne, h => by
    obtain ⟨t, c, rfl⟩ : ∃ t c, s = t ++ [c] := ⟨s.dropLast, s.getLast hne, (List.dropLast_concat_getLast hne).symm⟩
    rw [parseDigits_snoc] at h
    cases ht : parseDigits 0 t with
    | none => rw [ht] at h; simp at h
    | some m =>
      rw [ht] at h
      simp only [Option.bind_some] at h
      split at h
      · rename_i hc
        obtain ⟨h1, h2⟩ := isDigit_iff hc
        simp only [Option.some.injEq] at h
        cases t with
        | nil =>
          simp [parseDigits] at ht
          subst ht
          have : n = digitVal c := by omega
          rw [this]
          rw [h1]
          rw [← h1]
          have := DecNat.one h2
          rw [← h1] at this
          exact this
        | cons a t =>
          have ih := DecNat.of_parse k (s := a :: t) (n := m) (by simpa using hl) (by simp) ht
          have := DecNat.more ih h2
          rw [← h1] at this
          rw [show n = 10 * m + digitVal c by omega]
          exact this
      · cases h

theorem parseNat_iff {s : Str} {n : Nat} : parseNat s = some n ↔ DecNat s n := by
  constructor
  · intro h
    unfold parseNat at h
    split at h
    · cases h
    · rename_i hne
      exact DecNat.of_parse _ rfl hne h
  · intro h
    have := h.parse
    unfold parseNat
    split
    · exact absurd rfl this.2
    · exact this.1

theorem DecNat.noMinus {s : Str} {n : Nat} (h : DecNat ('-' :: s) n) : False := by
  have := h.parse.1
  simp [parseDigits, isDigit] at this

theorem parseInt_iff {s : Str} {z : Int} : parseInt s = some z ↔ IntToken s z := by
  constructor
  · intro h
    unfold parseInt at h
    split at h
    · simp only [Option.map_eq_some_iff] at h
      obtain ⟨n, h1, rfl⟩ := h
      exact .neg (parseNat_iff.1 h1)
    · simp only [Option.map_eq_some_iff] at h
      obtain ⟨n, h1, rfl⟩ := h
      exact .nonneg (parseNat_iff.1 h1)
  · intro h
    cases h with
    | nonneg h =>
      unfold parseInt
      split
      · exact h.noMinus.elim
      · rw [parseNat_iff.2 h]; rfl
    | neg h =>
      simp only [parseInt, parseNat_iff.2 h]; rfl

/-- a token denotes one integer -/
theorem IntToken.unique {s : Str} {z z' : Int} (h : IntToken s z) (h' : IntToken s z') : z = z' := by
  have := parseInt_iff.2 h
  rw [parseInt_iff.2 h'] at this
  exact (Option.some.inj this).symm

theorem wrapsTo_wrap {p : Prim} (hp : p.isInt = true) (z : Int) : WrapsTo p z (p.wrap z) := by
  unfold WrapsTo
  cases p <;> simp [Prim.isInt] at hp <;>
    simp only [Prim.minValue, Prim.maxValue, Prim.modulus, Prim.wrap] <;>
    first
      | (refine ⟨by rw [Int.bmod_def]; simp only [Nat.reducePow]; split <;> omega,
          by rw [Int.bmod_def]; simp only [Nat.reducePow]; split <;> omega, z / 256 + (if z % 256 < 128 then 0 else 1), ?_⟩
         rw [Int.bmod_def]; simp only [Nat.reducePow]; split <;> split <;> omega)
      | (refine ⟨by rw [Int.bmod_def]; simp only [Nat.reducePow]; split <;> omega,
          by rw [Int.bmod_def]; simp only [Nat.reducePow]; split <;> omega, z / 65536 + (if z % 65536 < 32768 then 0 else 1), ?_⟩
         rw [Int.bmod_def]; simp only [Nat.reducePow]; split <;> split <;> omega)
      | (refine ⟨by rw [Int.bmod_def]; simp only [Nat.reducePow]; split <;> omega,
          by rw [Int.bmod_def]; simp only [Nat.reducePow]; split <;> omega,
          z / 4294967296 + (if z % 4294967296 < 2147483648 then 0 else 1), ?_⟩
         rw [Int.bmod_def]; simp only [Nat.reducePow]; split <;> split <;> omega)
      | (refine ⟨by rw [Int.bmod_def]; simp only [Nat.reducePow]; split <;> omega,
          by rw [Int.bmod_def]; simp only [Nat.reducePow]; split <;> omega,
          z / 18446744073709551616 + (if z % 18446744073709551616 < 9223372036854775808 then 0 else 1), ?_⟩
         rw [Int.bmod_def]; simp only [Nat.reducePow]; split <;> split <;> omega)
      | exact ⟨by omega, by omega, z / 256, by omega⟩
      | exact ⟨by omega, by omega, z / 65536, by omega⟩
      | exact ⟨by omega, by omega, z / 4294967296, by omega⟩
      | exact ⟨by omega, by omega, z / 18446744073709551616, by omega⟩

theorem WrapsTo.unique {p : Prim} (hp : p.isInt = true) {z w w' : Int} (h : WrapsTo p z w) (h' : WrapsTo p z w') : w = w' := by
  obtain ⟨a, b, q, hq⟩ := h
  obtain ⟨c, d, q', hq'⟩ := h'
  cases p <;> simp [Prim.isInt] at hp <;>
    simp only [Prim.minValue, Prim.maxValue, Prim.modulus] at * <;> omega

/-- a value in range is its own conversion -/
theorem WrapsTo.self {p : Prim} {z : Int} (h1 : p.minValue ≤ z) (h2 : z ≤ p.maxValue) : WrapsTo p z z :=
  ⟨h1, h2, 0, by omega⟩

theorem WrapsTo.eq_wrap {p : Prim} (hp : p.isInt = true) {z w : Int} (h : WrapsTo p z w) : w = p.wrap z :=
  h.unique hp (wrapsTo_wrap hp z)

theorem wrap_idem {p : Prim} (hp : p.isInt = true) (z : Int) : p.wrap (p.wrap z) = p.wrap z := by
  have h := wrapsTo_wrap hp z
  exact ((wrapsTo_wrap hp _).unique hp (WrapsTo.self h.1 h.2.1))

end VJ
