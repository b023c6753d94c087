import Verif.Proof.Codecs
import Verif.Model.GenFill

/-!
The integers read from a default tag are those the Go specification gives to the literal.
-/

namespace VJ

theorem baseDigits_append {b : Nat} (s : Str) (c : Char) : ∀ (acc : Nat),
    baseDigits b acc (s ++ [c]) = (baseDigits b acc s).bind fun n => baseDigits b n [c] := by
  induction s with
  | nil => intro acc; rfl
  | cons d s ih =>
    intro acc
    simp only [List.cons_append, baseDigits]
    cases hexVal d with
    | none => rfl
    | some x =>
      simp only
      split
      · exact ih _
      · rfl

theorem baseNat_append {b : Nat} {s : Str} (hs : s ≠ []) (c : Char) :
    baseNat b (s ++ [c]) = (baseNat b s).bind fun n => baseDigits b n [c] := by
  simp only [baseNat, List.append_eq_nil_iff, List.cons_ne_self, and_false, if_false, hs]
  exact baseDigits_append s c 0

theorem baseDigits_one {b n : Nat} {c : Char} {m : Nat} :
    baseDigits b n [c] = some m ↔ ∃ d, HexDigit c d ∧ d < b ∧ m = n * b + d := by
  simp only [baseDigits]
  constructor
  · intro h
    split at h
    · rename_i d hd
      split at h
      · rename_i hb
        exact ⟨d, hexVal_iff.1 hd, hb, by cases h; rfl⟩
      · cases h
    · cases h
  · rintro ⟨d, hd, hb, rfl⟩
    rw [hexVal_iff.2 hd]
    simp only [hb, if_true]

theorem digits_ne_nil {b : Nat} {s : Str} {n : Nat} (h : DigitsOf b s n) : s ≠ [] := by
  cases h <;> simp

theorem baseNat_iff {b : Nat} {s : Str} {n : Nat} : baseNat b s = some n ↔ DigitsOf b s n := by
  constructor
  · intro h
    obtain ⟨k, hk⟩ : ∃ k, k = s.length := ⟨_, rfl⟩
    induction k generalizing s n with
    | zero =>
      have : s = [] := List.length_eq_zero_iff.1 hk.symm
      subst this
      simp [baseNat] at h
    | succ k ih =>
      obtain ⟨t, c, rfl⟩ : ∃ t c, s = t ++ [c] :=
        ⟨s.dropLast, s.getLast (by intro e; simp [e] at hk), (List.dropLast_concat_getLast _).symm⟩
      by_cases ht : t = []
      · subst ht
        have h' : baseDigits b 0 [c] = some n := h
        obtain ⟨d, hd, hb, rfl⟩ := baseDigits_one.1 h'
        rw [Nat.zero_mul, Nat.zero_add]
        exact .one hd hb
      · rw [baseNat_append ht] at h
        obtain ⟨m, hm, hc⟩ := Option.bind_eq_some_iff.1 h
        obtain ⟨d, hd, hb, rfl⟩ := baseDigits_one.1 hc
        exact .more (ih hm (by simpa using hk)) hd hb
  · intro h
    induction h with
    | one hd hb =>
      show baseDigits b 0 _ = _
      exact baseDigits_one.2 ⟨_, hd, hb, by simp⟩
    | more hs hd hb ih =>
      rw [baseNat_append (digits_ne_nil hs), ih]
      exact baseDigits_one.2 ⟨_, hd, hb, rfl⟩

theorem digits_head {b : Nat} {s : Str} {n : Nat} (h : DigitsOf b s n) : ∃ c t d, s = c :: t ∧ HexDigit c d ∧ d < b := by
  induction h with
  | @one c d h hb => exact ⟨c, [], d, rfl, h, hb⟩
  | more hs hd hb ih =>
    obtain ⟨c, t, d, rfl, hc, hlt⟩ := ih
    exact ⟨c, t ++ _, d, rfl, hc, hlt⟩

theorem digits_not {b : Nat} {c : Char} {s : Str} {n : Nat} (h : DigitsOf b (c :: s) n) : ∃ d, hexVal c = some d ∧ d < b := by
  obtain ⟨c', t, d, he, hc, hb⟩ := digits_head h
  cases he
  exact ⟨d, hexVal_iff.2 hc, hb⟩

theorem goNat_iff {s : Str} {n : Nat} : goNat s = some n ↔ GoNumeral s n := by
  constructor
  · intro h
    unfold goNat at h
    split at h
    · exact .hex (.inl rfl) (baseNat_iff.1 h)
    · exact .hex (.inr rfl) (baseNat_iff.1 h)
    · exact .octal' (.inl rfl) (baseNat_iff.1 h)
    · exact .octal' (.inr rfl) (baseNat_iff.1 h)
    · exact .binary (.inl rfl) (baseNat_iff.1 h)
    · exact .binary (.inr rfl) (baseNat_iff.1 h)
    · exact .octal (baseNat_iff.1 h)
    · rename_i h1 h2 h3 h4 h5 h6 h7
      have hd := baseNat_iff.1 h
      obtain ⟨c, t, d, rfl, hc, hb⟩ := digits_head hd
      by_cases h0 : c = '0'
      · subst h0
        cases t with
        | nil =>
          have : baseNat 10 ['0'] = some 0 := rfl
          rw [this] at h; cases h
          exact .zero
        | cons c t => exact absurd rfl (h7 c t)
      · exact .decimal h0 hd
  · intro h
    cases h with
    | zero => rfl
    | decimal hc h =>
      unfold goNat
      split
      all_goals first
        | (rename_i he; cases he; exact absurd rfl hc)
        | exact baseNat_iff.2 h
    | @octal s n h =>
      obtain ⟨c, t, d, rfl, hc, hb⟩ := digits_head h
      have hv := hexVal_iff.2 hc
      have e1 : hexVal 'x' = none := rfl
      have e2 : hexVal 'X' = none := rfl
      have e3 : hexVal 'o' = none := rfl
      have e4 : hexVal 'O' = none := rfl
      have e5 : hexVal 'b' = some 11 := rfl
      have e6 : hexVal 'B' = some 11 := rfl
      unfold goNat
      split
      all_goals first
        | (rename_i he; cases he; first | exact baseNat_iff.2 h | (simp_all; omega))
        | skip
      all_goals first
        | (rename_i h7; exact absurd rfl (h7 c t))
        | (simp_all; omega)
        | simp_all
    | octal' ho h => rcases ho with rfl | rfl <;> exact baseNat_iff.2 h
    | hex ho h => rcases ho with rfl | rfl <;> exact baseNat_iff.2 h
    | binary ho h => rcases ho with rfl | rfl <;> exact baseNat_iff.2 h

theorem goNumeral_sign {c : Char} {s : Str} {n : Nat} (h : GoNumeral (c :: s) n) : c ≠ '-' ∧ c ≠ '+' := by
  have key : ∀ {b : Nat}, DigitsOf b (c :: s) n → c ≠ '-' ∧ c ≠ '+' := by
    intro b hd
    obtain ⟨d, hv, _⟩ := digits_not hd
    constructor <;> (rintro rfl; simp [hexVal] at hv)
  cases h with
  | zero => exact ⟨by decide, by decide⟩
  | decimal _ h => exact key h
  | octal h => exact ⟨by decide, by decide⟩
  | octal' _ h => exact ⟨by decide, by decide⟩
  | hex _ h => exact ⟨by decide, by decide⟩
  | binary _ h => exact ⟨by decide, by decide⟩

/-- **The integers of default tags.**  The model reads exactly the Go integer literals. -/
theorem goInt_iff {s : Str} {i : Int} : goInt s = some i ↔ GoInteger s i := by
  constructor
  · intro h
    unfold goInt at h
    split at h
    all_goals
      obtain ⟨n, hn, rfl⟩ := Option.map_eq_some_iff.1 h
    · exact .minus (goNat_iff.1 hn)
    · exact .plus (goNat_iff.1 hn)
    · exact .plain (goNat_iff.1 hn)
  · intro h
    cases h with
    | plain h =>
      have hg := goNat_iff.2 h
      unfold goInt
      split
      · exact absurd rfl (goNumeral_sign h).1
      · exact absurd rfl (goNumeral_sign h).2
      · rw [hg]; rfl
    | plus h => show (goNat _).map _ = _; rw [goNat_iff.2 h]; rfl
    | minus h => show (goNat _).map _ = _; rw [goNat_iff.2 h]; rfl

theorem goInteger_unique {s : Str} {i j : Int} (h : GoInteger s i) (h' : GoInteger s j) : i = j := by
  rw [← goInt_iff] at h h'
  rw [h] at h'
  exact Option.some.inj h'

end VJ
