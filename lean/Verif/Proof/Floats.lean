import Verif.Spec.Floats
import Verif.Proof.TimeText
import Verif.Proof.Codecs
import Mathlib.Tactic.Linarith
import Mathlib.Tactic.Ring
import Mathlib.Tactic.NormNum
import Mathlib.Tactic.IntervalCases
import Mathlib.Tactic.Positivity

/-! # Floats: rounding -/

namespace VJ.Floats
open TimeText (digitsVal digitsVal_append digitsVal_snoc digitsVal_lt)

theorem halfEven_bounds {a b : Nat} : a / b ≤ halfEven a b ∧ halfEven a b ≤ a / b + 1 := by
  unfold halfEven
  dsimp only
  split
  · omega
  · split
    · omega
    · split <;> omega

/-- how far a rounded quotient is off -/
theorem halfEven_err {a b : Nat} (hb : 0 < b) :
    |(halfEven a b * b : Int) - a| ≤ ((a % b : Nat) : Int) ∧ |(halfEven a b * b : Int) - a| ≤ b - ((a % b : Nat) : Int) := by
  have hd : (a : Int) = b * (a / b : Nat) + (a % b : Nat) := by exact_mod_cast (Nat.div_add_mod a b).symm
  have hr : (a % b : Nat) < b := Nat.mod_lt _ hb
  have hr' : ((a % b : Nat) : Int) < b := by exact_mod_cast hr
  have hr0 : (0 : Int) ≤ ((a % b : Nat) : Int) := by positivity
  unfold halfEven
  dsimp only
  generalize a % b = r at *
  generalize a / b = d at *
  have h1 : |((d : Nat) * b : Int) - a| = r := by
    rw [hd, abs_of_nonpos] <;> linarith [mul_comm (d : Int) b]
  have h2 : |(((d + 1 : Nat) : Int) * b : Int) - a| = b - r := by
    push_cast
    rw [hd, abs_of_nonneg] <;> linarith [mul_comm (d : Int) b]
  split
  · rename_i h
    have : (2 * r : Int) < b := by exact_mod_cast h
    rw [h1]; constructor <;> linarith
  · split
    · rename_i h
      have : (b : Int) < 2 * r := by exact_mod_cast h
      rw [h2]; constructor <;> linarith
    · have : (b : Int) = 2 * r := by omega
      split
      · rw [h1]; constructor <;> linarith
      · rw [h2]; constructor <;> linarith

/-- no multiple is nearer -/
theorem halfEven_nearest {a b : Nat} (hb : 0 < b) (m : Nat) : |(halfEven a b * b : Int) - a| ≤ |(m * b : Int) - a| := by
  have hd : (a : Int) = b * (a / b : Nat) + (a % b : Nat) := by exact_mod_cast (Nat.div_add_mod a b).symm
  have key := halfEven_err (a := a) hb
  rcases Nat.lt_or_ge (a / b) m with h | h
  · have hm : ((a / b : Nat) : Int) + 1 ≤ m := by exact_mod_cast h
    have : (((a / b : Nat) : Int) + 1) * b ≤ m * b := mul_le_mul_of_nonneg_right hm (by positivity)
    refine le_trans key.2 (le_trans ?_ (le_abs_self _))
    rw [hd]; push_cast at *; linarith [mul_comm ((a / b : Nat) : Int) b]
  · have hm : (m : Int) ≤ ((a / b : Nat) : Int) := by exact_mod_cast h
    have : (m : Int) * b ≤ ((a / b : Nat) : Int) * b := mul_le_mul_of_nonneg_right hm (by positivity)
    refine le_trans key.1 (le_trans ?_ (neg_le_abs _))
    rw [hd]; push_cast at *; linarith [mul_comm ((a / b : Nat) : Int) b]

theorem halfEven_scale {a b c : Nat} (hc : 0 < c) : halfEven (a * c) (b * c) = halfEven a b := by
  unfold halfEven
  dsimp only
  rw [Nat.mul_div_mul_right _ _ hc, Nat.mul_mod_mul_right]
  have h1 : (2 * (a % b * c) < b * c) ↔ (2 * (a % b) < b) := by
    rw [← mul_assoc]; exact Nat.mul_lt_mul_right hc
  have h2 : (b * c < 2 * (a % b * c)) ↔ (b < 2 * (a % b)) := by
    rw [← mul_assoc]; exact Nat.mul_lt_mul_right hc
  simp only [h1, h2]

theorem halfEven_exact {d b : Nat} (hb : 0 < b) : halfEven (d * b) b = d := by
  unfold halfEven
  simp [Nat.mul_div_cancel _ hb, hb]

/-- only the quotient counts -/
theorem ofRatio_scale (p q : Nat) {c : Nat} (hc : 0 < c) : ofRatio (p * c) (q * c) = ofRatio p q := by
  unfold ofRatio
  have h : p * c * 2 ^ 1074 / (q * c) = p * 2 ^ 1074 / q := by
    rw [mul_right_comm, Nat.mul_div_mul_right _ _ hc]
  have h2 : ∀ s, halfEven (p * c * 2 ^ 1074) (q * c * 2 ^ s) = halfEven (p * 2 ^ 1074) (q * 2 ^ s) := by
    intro s
    rw [mul_right_comm p, mul_right_comm q, halfEven_scale hc]
  simp only [h, h2]

theorem ofRatio_one {p c : Nat} (hc : 0 < c) : ofRatio (p * c) c = ofRatio p 1 := by
  have := ofRatio_scale p 1 hc
  rwa [one_mul] at this

/-- the float with the significand `d` and the exponent `s` -/
def unitsOf (b : Nat) : Nat := if b / 2 ^ 52 = 0 then b % 2 ^ 52 else (2 ^ 52 + b % 2 ^ 52) * 2 ^ (b / 2 ^ 52 - 1)

theorem units_eq (f : F64) : units f = unitsOf (magBits f) := rfl

theorem unitsOf_pack {s d : Nat} (hd : d ≤ 2 ^ 53) (hs : s = 0 ∨ 2 ^ 52 ≤ d) : unitsOf (s * 2 ^ 52 + d) = d * 2 ^ s := by
  unfold unitsOf
  rcases Nat.lt_or_ge d (2 ^ 52) with h | h
  · obtain rfl : s = 0 := by omega
    rw [if_pos (by omega)]
    omega
  · rcases Nat.lt_or_ge d (2 ^ 53) with h' | h'
    · have e1 : (s * 2 ^ 52 + d) / 2 ^ 52 = s + 1 := by omega
      have e2 : (s * 2 ^ 52 + d) % 2 ^ 52 = d - 2 ^ 52 := by omega
      rw [e1, e2, if_neg (by omega), Nat.add_sub_cancel]
      rw [show 2 ^ 52 + (d - 2 ^ 52) = d by omega]
    · obtain rfl : d = 2 ^ 53 := by omega
      have e1 : (s * 2 ^ 52 + 2 ^ 53) / 2 ^ 52 = s + 2 := by omega
      have e2 : (s * 2 ^ 52 + 2 ^ 53) % 2 ^ 52 = 0 := by omega
      rw [e1, e2, if_neg (by omega), show s + 2 - 1 = s + 1 from rfl, pow_succ]
      ring

theorem unitsOf_split {b s : Nat} (h : 2 ^ (52 + s) ≤ unitsOf b) : ∃ m, unitsOf b = m * 2 ^ s := by
  unfold unitsOf at *
  split at h
  · exfalso
    have : b % 2 ^ 52 < 2 ^ 52 := Nat.mod_lt _ (by norm_num)
    have : 2 ^ 52 ≤ 2 ^ (52 + s) := Nat.pow_le_pow_right (by norm_num) (by omega)
    omega
  · rename_i hne
    rw [if_neg hne]
    have hm : b % 2 ^ 52 < 2 ^ 52 := Nat.mod_lt _ (by norm_num)
    generalize b % 2 ^ 52 = m at *
    generalize b / 2 ^ 52 - 1 = e at *
    have : s ≤ e := by
      by_contra hlt
      have h1 : (2 ^ 52 + m) * 2 ^ e < 2 ^ 53 * 2 ^ e := Nat.mul_lt_mul_of_pos_right (by omega) (by positivity)
      have h2 : 2 ^ 53 * 2 ^ e ≤ 2 ^ (52 + s) := by
        rw [← pow_add]; exact Nat.pow_le_pow_right (by norm_num) (by omega)
      omega
    refine ⟨(2 ^ 52 + m) * 2 ^ (e - s), ?_⟩
    rw [mul_assoc, ← pow_add, Nat.sub_add_cancel this]

/-- the shift and the significand of a rounded quotient -/
def shiftOf (P q : Nat) : Nat := Nat.log2 (P / q) - 52

theorem shift_bounds {P q : Nat} (hq : 0 < q) :
    halfEven P (q * 2 ^ shiftOf P q) ≤ 2 ^ 53 ∧
      (shiftOf P q = 0 ∨ (2 ^ 52 ≤ halfEven P (q * 2 ^ shiftOf P q) ∧ 2 ^ (52 + shiftOf P q) * q ≤ P)) := by
  have hlt : P / q < 2 ^ (Nat.log2 (P / q) + 1) := Nat.lt_log2_self
  have hb := halfEven_bounds (a := P) (b := q * 2 ^ shiftOf P q)
  rw [← Nat.div_div_eq_div_mul] at hb
  have hup : P / q / 2 ^ shiftOf P q < 2 ^ 53 := by
    rw [Nat.div_lt_iff_lt_mul (by positivity), ← pow_add]
    refine lt_of_lt_of_le hlt (Nat.pow_le_pow_right (by norm_num) ?_)
    unfold shiftOf; omega
  refine ⟨by omega, ?_⟩
  by_cases hs : shiftOf P q = 0
  · exact .inl hs
  · right
    have hne : P / q ≠ 0 := by
      intro h0
      apply hs
      unfold shiftOf
      rw [h0]; rfl
    have hle : 2 ^ Nat.log2 (P / q) ≤ P / q := Nat.log2_self_le hne
    have hlog : Nat.log2 (P / q) = 52 + shiftOf P q := by unfold shiftOf at *; omega
    rw [hlog] at hle
    constructor
    · refine le_trans ?_ hb.1
      rw [Nat.le_div_iff_mul_le (by positivity), ← pow_add]
      exact hle
    · exact (Nat.le_div_iff_mul_le hq).1 hle

theorem ofRatio_eq (p q : Nat) : ofRatio p q =
    UInt64.ofNat (min (shiftOf (p * 2 ^ 1074) q * 2 ^ 52 + halfEven (p * 2 ^ 1074) (q * 2 ^ shiftOf (p * 2 ^ 1074) q)) (2047 * 2 ^ 52)) := rfl

theorem magBits_ofNat {n : Nat} (h : n < 2 ^ 63) : magBits (UInt64.ofNat n) = n := by
  unfold magBits
  rw [UInt64.toNat_ofNat']
  omega

theorem magBits_ofRatio (p q : Nat) : magBits (ofRatio p q) =
    min (shiftOf (p * 2 ^ 1074) q * 2 ^ 52 + halfEven (p * 2 ^ 1074) (q * 2 ^ shiftOf (p * 2 ^ 1074) q)) (2047 * 2 ^ 52) := by
  rw [ofRatio_eq, magBits_ofNat]
  exact lt_of_le_of_lt (min_le_right _ _) (by norm_num)

theorem units_ofRatio {p q : Nat} (hq : 0 < q) (hf : IsFinite (ofRatio p q)) :
    units (ofRatio p q) = halfEven (p * 2 ^ 1074) (q * 2 ^ shiftOf (p * 2 ^ 1074) q) * 2 ^ shiftOf (p * 2 ^ 1074) q := by
  have hm := magBits_ofRatio p q
  unfold IsFinite at hf
  rw [hm] at hf
  rw [units_eq, hm, min_eq_left (by
    rcases min_lt_iff.1 hf with h | h
    · exact h.le
    · exact absurd h (lt_irrefl _))]
  obtain ⟨h1, h2⟩ := shift_bounds (P := p * 2 ^ 1074) hq
  exact unitsOf_pack h1 (h2.imp id (·.1))

/-- no finite float is nearer to the quotient -/
theorem ofRatio_nearest {p q : Nat} (hq : 0 < q) (hf : IsFinite (ofRatio p q)) (g : F64) :
    |(units (ofRatio p q) * q : Int) - (p * 2 ^ 1074 : Nat)| ≤ |(units g * q : Int) - (p * 2 ^ 1074 : Nat)| := by
  rw [units_ofRatio hq hf]
  generalize p * 2 ^ 1074 = P
  obtain ⟨-, h2⟩ := shift_bounds (P := P) hq
  generalize shiftOf P q = s at *
  have hnear : ∀ m : Nat, |((halfEven P (q * 2 ^ s) * 2 ^ s : Nat) * q : Int) - P| ≤ |((m * 2 ^ s : Nat) * q : Int) - P| := by
    intro m
    have := halfEven_nearest (a := P) (b := q * 2 ^ s) (by positivity) m
    have e : ∀ x : Nat, ((x * 2 ^ s : Nat) * q : Int) = x * (q * 2 ^ s : Nat) := by intro x; push_cast; ring
    rw [e, e]; exact this
  rcases h2 with rfl | ⟨-, h2⟩
  · have := hnear (units g)
    simpa using this
  · rcases Nat.lt_or_ge (units g) (2 ^ (52 + s)) with hlt | hge
    · have := hnear (2 ^ 52)
      rw [← pow_add] at this
      refine le_trans this ?_
      have h3 : ((2 ^ (52 + s) : Nat) * q : Int) ≤ P := by exact_mod_cast h2
      have h4 : (units g * q : Int) ≤ ((2 ^ (52 + s) : Nat) * q : Int) := by
        exact_mod_cast Nat.mul_le_mul_right q hlt.le
      rw [abs_of_nonpos (by linarith), abs_of_nonpos (by linarith)]
      linarith
    · obtain ⟨m, hm⟩ := unitsOf_split (b := magBits g) hge
      rw [units_eq, hm]
      exact hnear m

theorem toNat_of_pos {f : F64} (h : f.toNat < 2 ^ 63) : magBits f = f.toNat := Nat.mod_eq_of_lt h

/-- every float is a quotient -/
theorem pack_unitsOf {b : Nat} : shiftOf (unitsOf b) 1 * 2 ^ 52 + halfEven (unitsOf b) (2 ^ shiftOf (unitsOf b) 1) = b := by
  unfold shiftOf
  rw [Nat.div_one]
  unfold unitsOf
  by_cases h0 : b / 2 ^ 52 = 0
  · rw [if_pos h0]
    have hb : b % 2 ^ 52 = b := Nat.mod_eq_of_lt (by omega)
    have hlog : Nat.log2 b - 52 = 0 := by
      by_cases hb0 : b = 0
      · subst hb0; rfl
      · have := (Nat.log2_lt hb0).2 (show b < 2 ^ 52 by omega)
        omega
    have := halfEven_exact (d := b) (b := 1) (by norm_num)
    rw [mul_one] at this
    rw [hb, hlog, pow_zero, this]
    omega
  · rw [if_neg h0]
    have hm : b % 2 ^ 52 < 2 ^ 52 := Nat.mod_lt _ (by norm_num)
    have hlog : Nat.log2 ((2 ^ 52 + b % 2 ^ 52) * 2 ^ (b / 2 ^ 52 - 1)) = 52 + (b / 2 ^ 52 - 1) := by
      refine (Nat.log2_eq_iff (by positivity)).2 ⟨?_, ?_⟩
      · rw [pow_add]; exact Nat.mul_le_mul_right _ (by omega)
      · rw [show 52 + (b / 2 ^ 52 - 1) + 1 = 53 + (b / 2 ^ 52 - 1) by omega, pow_add]
        exact Nat.mul_lt_mul_of_pos_right (by omega) (by positivity)
    rw [hlog, Nat.add_sub_cancel_left, halfEven_exact (by positivity)]
    omega

/-- The unit, `2 ^ 1074`, is out of the way of evaluation. -/
theorem ofRatio_of {p q : Nat} {b : Nat} (hq : 0 < q) (hb : b < 2047 * 2 ^ 52) (h : p * 2 ^ 1074 = unitsOf b * q) :
    ofRatio p q = UInt64.ofNat b := by
  rw [ofRatio_eq, h]
  have hs : shiftOf (unitsOf b * q) q = shiftOf (unitsOf b) 1 := by
    unfold shiftOf
    rw [Nat.mul_div_cancel _ hq, Nat.div_one]
  have hhe : ∀ s, halfEven (unitsOf b * q) (q * 2 ^ s) = halfEven (unitsOf b) (2 ^ s) := by
    intro s
    rw [mul_comm q, halfEven_scale hq]
  rw [hs, hhe, pack_unitsOf, min_eq_left hb.le]

/-- every float is a quotient -/
theorem ofRatio_units {f : F64} (h : IsFinite f) : ofRatio (units f) (2 ^ 1074) = UInt64.ofNat (magBits f) :=
  ofRatio_of (by positivity) h (by rw [units_eq])

/-- whole numbers of 53 bits are floats, and so are they with zeros after them -/
theorem conv_units_shift {n j : Nat} (h : n < 2 ^ 53) (hj : j ≤ 900) : units (conv (n * 2 ^ j)) = n * 2 ^ j * 2 ^ 1074 := by
  have key : ∃ b, b < 2047 * 2 ^ 52 ∧ unitsOf b = n * 2 ^ j * 2 ^ 1074 := by
    by_cases hn : n = 0
    · subst hn
      exact ⟨0, by norm_num, by simp [unitsOf]⟩
    · have h1 := (Nat.log2_lt hn).2 h
      have h2 := Nat.log2_self_le hn
      have h3 : n < 2 ^ (Nat.log2 n + 1) := Nat.lt_log2_self
      generalize Nat.log2 n = l at *
      have h4 : 2 ^ 52 ≤ n * 2 ^ (52 - l) := by
        calc 2 ^ 52 = 2 ^ l * 2 ^ (52 - l) := by rw [← pow_add]; congr 1; omega
          _ ≤ _ := Nat.mul_le_mul_right _ h2
      have h5 : n * 2 ^ (52 - l) < 2 ^ 53 := by
        calc n * 2 ^ (52 - l) < 2 ^ (l + 1) * 2 ^ (52 - l) := Nat.mul_lt_mul_of_pos_right h3 (by positivity)
          _ = 2 ^ 53 := by rw [← pow_add]; congr 1; omega
      refine ⟨(1022 + l + j) * 2 ^ 52 + n * 2 ^ (52 - l), by omega, ?_⟩
      rw [unitsOf_pack h5.le (.inr h4), mul_assoc, mul_assoc, ← pow_add, ← pow_add]
      congr 2; omega
  obtain ⟨b, hb, hu⟩ := key
  rw [conv, ofRatio_of (b := b) (by norm_num) hb (by rw [hu, mul_one]), units_eq, magBits_ofNat (by omega), hu]

theorem conv_units {n : Nat} (h : n < 2 ^ 53) : units (conv n) = n * 2 ^ 1074 := by
  have := conv_units_shift (j := 0) h (by norm_num)
  rwa [pow_zero, mul_one] at this

theorem conv_units_pow {k : Nat} (h : k ≤ 22) : units (conv (10 ^ k)) = 10 ^ k * 2 ^ 1074 := by
  have h5 : 5 ^ k < 2 ^ 53 := lt_of_le_of_lt (Nat.pow_le_pow_right (by norm_num) h) (by norm_num)
  have := conv_units_shift (j := k) h5 (by omega)
  rwa [← mul_pow] at this

/-- floats that are whole numbers are divided with one rounding -/
theorem div_conv {a b : Nat} (ha : units (conv a) = a * 2 ^ 1074) (hb : units (conv b) = b * 2 ^ 1074) : div (conv a) (conv b) = ofRatio a b := by
  rw [div, ha, hb, ofRatio_scale _ _ (by positivity)]

/-- and multiplied -/
theorem mul_conv {a b : Nat} (ha : units (conv a) = a * 2 ^ 1074) (hb : units (conv b) = b * 2 ^ 1074) : mul (conv a) (conv b) = conv (a * b) := by
  have h2 : (2 : Nat) ^ 2148 = 2 ^ 1074 * 2 ^ 1074 := by rw [← pow_add]
  rw [mul, ha, hb, conv, h2, Nat.mul_mul_mul_comm]
  exact ofRatio_one (by positivity)

theorem unitsOf_lt {b : Nat} (h : b < 2047 * 2 ^ 52) : unitsOf b ≤ (2 ^ 53 - 1) * 2 ^ 2045 := by
  have hm : b % 2 ^ 52 < 2 ^ 52 := Nat.mod_lt _ (by norm_num)
  unfold unitsOf
  split
  · refine le_trans (show b % 2 ^ 52 ≤ (2 ^ 53 - 1) * 1 by omega) (Nat.mul_le_mul_left _ (Nat.one_le_two_pow))
  · exact Nat.mul_le_mul (by omega) (Nat.pow_le_pow_right (by norm_num) (by omega))

/-- what becomes infinite is beyond all finite floats -/
theorem ofRatio_inf {p q : Nat} (hq : 0 < q) (hf : ¬IsFinite (ofRatio p q)) :
    magBits (ofRatio p q) = 2047 * 2 ^ 52 ∧ ∀ g, IsFinite g → units g * q < p * 2 ^ 1074 := by
  have hm := magBits_ofRatio p q
  unfold IsFinite at hf
  have hle : 2047 * 2 ^ 52 ≤ shiftOf (p * 2 ^ 1074) q * 2 ^ 52 + halfEven (p * 2 ^ 1074) (q * 2 ^ shiftOf (p * 2 ^ 1074) q) := by
    rw [hm] at hf
    exact (le_min_iff.1 (Nat.le_of_not_lt hf)).1
  refine ⟨by rw [hm, min_eq_right hle], fun g hg => ?_⟩
  have hgu := unitsOf_lt hg
  rw [← units_eq] at hgu
  obtain ⟨h1, h2⟩ := shift_bounds (P := p * 2 ^ 1074) hq
  generalize p * 2 ^ 1074 = P at *
  have hs : 2045 ≤ shiftOf P q := by omega
  have hlow := (h2.resolve_left (by omega)).2
  rcases Nat.lt_or_ge 2045 (shiftOf P q) with hs' | hs'
  · calc units g * q ≤ (2 ^ 53 - 1) * 2 ^ 2045 * q := Nat.mul_le_mul_right _ hgu
      _ < 2 ^ 53 * 2 ^ 2045 * q := Nat.mul_lt_mul_of_pos_right (Nat.mul_lt_mul_of_pos_right (by norm_num) (by positivity)) hq
      _ = 2 ^ 2098 * q := by rw [← pow_add]
      _ ≤ 2 ^ (52 + shiftOf P q) * q := Nat.mul_le_mul_right _ (Nat.pow_le_pow_right (by norm_num) (by omega))
      _ ≤ P := hlow
  · have hs : shiftOf P q = 2045 := by omega
    rw [hs] at hle h1
    have hd : halfEven P (q * 2 ^ 2045) = 2 ^ 53 := by omega
    have hn := halfEven_nearest (a := P) (b := q * 2 ^ 2045) (by positivity) (2 ^ 53 - 1)
    rw [hd] at hn
    have : (2 ^ 53 - 1) * (q * 2 ^ 2045) < P := by
      by_contra hcon
      have hcon : P ≤ (2 ^ 53 - 1) * (q * 2 ^ 2045) := Nat.le_of_not_lt hcon
      have hpos : 0 < q * 2 ^ 2045 := by positivity
      generalize q * 2 ^ 2045 = b at *
      rw [abs_of_nonneg (by push_cast; omega), abs_of_nonneg (by push_cast; omega)] at hn
      push_cast at hn
      omega
    calc units g * q ≤ (2 ^ 53 - 1) * 2 ^ 2045 * q := Nat.mul_le_mul_right _ hgu
      _ = (2 ^ 53 - 1) * (q * 2 ^ 2045) := by rw [mul_assoc, mul_comm (2 ^ 2045)]
      _ < P := this

/-! ## Texts -/

theorem takeWhile_append_stop {p : Char → Bool} {a b : Str} (ha : ∀ c ∈ a, p c = true) (hb : ∀ c ∈ b.head?, p c = false) :
    (a ++ b).takeWhile p = a ∧ (a ++ b).dropWhile p = b := by
  induction a with
  | nil =>
    cases b with
    | nil => exact ⟨rfl, rfl⟩
    | cons c b => simp [hb c rfl]
  | cons x a ih =>
    have := ih fun c hc => ha c (.tail _ hc)
    simp [ha x (.head _), this]

theorem digits_of {s : Str} (h : Digits s) : ∀ c ∈ s, isDigit c = true := by
  intro c hc
  obtain ⟨d, hd, rfl⟩ := h.2 c hc
  interval_cases d <;> decide

theorem digits_mk {s : Str} (h0 : s ≠ []) (h : ∀ c ∈ s, isDigit c = true) : Digits s :=
  ⟨h0, fun c hc => ⟨digitVal c, (isDigit_iff (h c hc)).2, (isDigit_iff (h c hc)).1⟩⟩

theorem takeWhile_digits (s : Str) : ∀ c ∈ s.takeWhile isDigit, isDigit c = true := by
  induction s with
  | nil => intro c hc; cases hc
  | cons x s ih =>
    intro c hc
    rw [List.takeWhile_cons] at hc
    split at hc
    · rcases List.mem_cons.1 hc with rfl | hc
      · assumption
      · exact ih c hc
    · cases hc

theorem expOf_eq {et : Str} {x : Option (Bool × Str)}
    (he : (et = [] ∧ x = none) ∨ ∃ e sg ds, et = e :: sg ++ ds ∧ (e = 'e' ∨ e = 'E') ∧ Digits ds ∧
      ((sg = ['-'] ∧ x = some (true, ds)) ∨ ((sg = [] ∨ sg = ['+']) ∧ x = some (false, ds)))) : expOf et = some x := by
  rcases he with ⟨rfl, rfl⟩ | ⟨e, sg, ds, rfl, he, hd, hx⟩
  · rfl
  · have hds : ds.head? ≠ some '-' ∧ ds.head? ≠ some '+' := by
      constructor <;> intro h <;> exact absurd (digits_of hd _ (List.mem_of_head? h)) (by decide)
    have hall : ds.all isDigit = true := List.all_eq_true.2 (digits_of hd)
    have hne := hd.1
    rw [List.cons_append, expOf]
    rcases hx with ⟨rfl, rfl⟩ | ⟨rfl | rfl, rfl⟩
    · simp only [he, List.cons_append, List.nil_append, List.head?_cons, true_or, if_true, List.drop_succ_cons, List.drop_zero, hall, hne, ne_eq, not_false_eq_true, and_self, decide_true]
    · simp only [he, List.nil_append, hds, or_self, if_false, hall, hne, ne_eq, not_false_eq_true, and_self, if_true, decide_false]
    · simp [he, hall, hne]

theorem expOf_inv {et : Str} {x : Option (Bool × Str)} (h : expOf et = some x) :
    (et = [] ∧ x = none) ∨ ∃ e sg ds, et = e :: sg ++ ds ∧ (e = 'e' ∨ e = 'E') ∧ Digits ds ∧
      ((sg = ['-'] ∧ x = some (true, ds)) ∨ ((sg = [] ∨ sg = ['+']) ∧ x = some (false, ds))) := by
  cases et with
  | nil => exact .inl ⟨rfl, by simpa [expOf] using h.symm⟩
  | cons e s =>
    right
    rw [expOf, Option.ite_none_right_eq_some] at h
    obtain ⟨⟨he, hne, hall⟩, h⟩ := h
    cases h
    have hd := digits_mk hne (List.all_eq_true.1 hall)
    cases s with
    | nil => exact absurd rfl hne
    | cons c s =>
      by_cases h1 : c = '-'
      · subst h1
        simp at hd
        exact ⟨e, ['-'], s, rfl, he, hd, .inl ⟨rfl, by simp⟩⟩
      · by_cases h2 : c = '+'
        · subst h2
          simp at hd
          exact ⟨e, ['+'], s, rfl, he, hd, .inr ⟨.inr rfl, by simp⟩⟩
        · simp only [List.head?_cons, Option.some.injEq, h1, h2, or_self, if_false] at hd ⊢
          exact ⟨e, [], c :: s, rfl, he, hd, .inr ⟨.inl rfl, by simp⟩⟩

theorem expOf_head {et : Str} {x : Option (Bool × Str)} (h : expOf et = some x) : ∀ c ∈ et.head?, isDigit c = false ∧ c ≠ '.' := by
  intro c hc
  rcases expOf_inv h with ⟨rfl, -⟩ | ⟨e, sg, ds, rfl, he, -⟩
  · cases hc
  · simp at hc
    rcases he with rfl | rfl <;> subst hc <;> decide

theorem splitFrac_eq {ft et frac : Str} (hf : (ft = [] ∧ frac = []) ∨ (ft = '.' :: frac ∧ Digits frac))
    (he : ∀ c ∈ et.head?, isDigit c = false ∧ c ≠ '.') : splitFrac (ft ++ et) = some (frac, et) := by
  rcases hf with ⟨rfl, rfl⟩ | ⟨rfl, hfd⟩
  · cases et with
    | nil => rfl
    | cons c et =>
      have := (he c rfl).2
      rw [List.nil_append]
      unfold splitFrac
      split
      · rename_i heq; cases heq; exact absurd rfl this
      · rfl
  · obtain ⟨u1, u2⟩ := takeWhile_append_stop (digits_of hfd) (b := et) fun c hc => (he c hc).1
    rw [List.cons_append, splitFrac, u1, u2, if_neg hfd.1]

theorem splitFrac_inv {s frac et : Str} (h : splitFrac s = some (frac, et)) :
    ∃ ft, s = ft ++ et ∧ ((ft = [] ∧ frac = []) ∨ (ft = '.' :: frac ∧ Digits frac)) := by
  unfold splitFrac at h
  split at h
  · rename_i r
    split at h
    · cases h
    · rename_i hne
      cases h
      exact ⟨'.' :: r.takeWhile isDigit, by simp, .inr ⟨rfl, digits_mk hne (takeWhile_digits r)⟩⟩
  · cases h
    exact ⟨[], rfl, .inl ⟨rfl, rfl⟩⟩

/-- The parts of a text are those it is written with. -/
theorem parts_written {s : Str} {n : Parts} (h : Numeral n s) : parts s = some n := by
  obtain ⟨neg, int, frac, exp⟩ := n
  obtain ⟨hi, ft, et, rfl, hf, he⟩ := h
  dsimp only at *
  have hint : int ≠ [] ∧ (∀ c ∈ int, isDigit c = true) ∧ ¬(int.head? = some '0' ∧ 1 < int.length) ∧ int.head? ≠ some '-' := by
    rcases hi with rfl | ⟨hd, h0⟩
    · decide
    · refine ⟨hd.1, digits_of hd, fun h => h0 h.1, fun h => ?_⟩
      have := digits_of hd '-' (List.mem_of_head? h)
      exact absurd this (by decide)
  obtain ⟨hi0, hid, hi1, hi2⟩ := hint
  have hx := expOf_eq he
  have hs : splitSign ((if neg then ['-'] else []) ++ int ++ ft ++ et) = (neg, int ++ (ft ++ et)) := by
    cases neg with
    | true => simp [splitSign]
    | false =>
      cases int with
      | nil => exact absurd rfl hi0
      | cons c int =>
        simp only [Bool.false_eq_true, if_false, List.nil_append, List.cons_append, List.append_assoc]
        unfold splitSign
        split
        · rename_i heq; cases heq; exact absurd rfl hi2
        · rfl
  have hfe : ∀ c ∈ (ft ++ et).head?, isDigit c = false := by
    intro c hc
    rcases hf with ⟨rfl, -⟩ | ⟨rfl, -⟩
    · exact (expOf_head hx c hc).1
    · simp at hc
      subst hc; decide
  obtain ⟨t1, t2⟩ := takeWhile_append_stop hid hfe
  unfold parts
  rw [hs]
  dsimp only
  rw [t1, t2, if_neg (not_or.2 ⟨hi0, hi1⟩), splitFrac_eq hf (expOf_head hx)]
  simp [hx]

theorem written_parts {s : Str} {n : Parts} (h : parts s = some n) : Numeral n s := by
  unfold parts at h
  dsimp only at h
  split at h
  · cases h
  · rename_i hi
    obtain ⟨hi0, hi1⟩ := not_or.1 hi
    obtain ⟨⟨frac, et⟩, hf, h⟩ := Option.bind_eq_some_iff.1 h
    obtain ⟨x, hx, h⟩ := Option.map_eq_some_iff.1 h
    obtain ⟨ft, hft, hf⟩ := splitFrac_inv hf
    have hs : s = (if (splitSign s).1 = true then ['-'] else []) ++ (splitSign s).2 := by
      unfold splitSign
      split <;> rfl
    have hr : (splitSign s).2 = (splitSign s).2.takeWhile isDigit ++ (ft ++ et) := by
      rw [← hft, List.takeWhile_append_dropWhile]
    generalize (splitSign s).1 = neg at *
    have hd := takeWhile_digits (splitSign s).2
    generalize (splitSign s).2.takeWhile isDigit = int at *
    subst h
    refine ⟨?_, ft, et, ?_, hf, expOf_inv hx⟩
    · dsimp only
      by_cases h0 : int.head? = some '0'
      · left
        cases int with
        | nil => cases h0
        | cons c int =>
          cases h0
          cases int with
          | nil => rfl
          | cons c int => exact absurd ⟨rfl, by simp⟩ hi1
      · exact .inr ⟨digits_mk hi0 hd, h0⟩
    · dsimp only
      rw [hs, hr]
      simp only [List.append_assoc]

theorem parts_iff {s : Str} {n : Parts} : parts s = some n ↔ Numeral n s := ⟨written_parts, parts_written⟩

theorem numText_iff {s : Str} : NumText s ↔ ∃ n, Numeral n s := by
  constructor
  · rintro ⟨hs, hi, hf, he⟩
    rename_i sign int frac exp
    obtain ⟨neg, rfl⟩ : ∃ neg : Bool, sign = if neg then ['-'] else [] := by
      rcases hs with rfl | rfl
      · exact ⟨false, rfl⟩
      · exact ⟨true, rfl⟩
    obtain ⟨fr, hf⟩ : ∃ fr, (frac = [] ∧ fr = []) ∨ (frac = '.' :: fr ∧ Digits fr) := by
      rcases hf with rfl | ⟨ds, rfl, hd⟩
      · exact ⟨[], .inl ⟨rfl, rfl⟩⟩
      · exact ⟨ds, .inr ⟨rfl, hd⟩⟩
    obtain ⟨x, he⟩ : ∃ x, (exp = [] ∧ x = none) ∨ ∃ e sg ds, exp = e :: sg ++ ds ∧ (e = 'e' ∨ e = 'E') ∧ Digits ds ∧
        ((sg = ['-'] ∧ x = some (true, ds)) ∨ ((sg = [] ∨ sg = ['+']) ∧ x = some (false, ds))) := by
      rcases he with rfl | ⟨e, sg, ds, rfl, he, hsg, hd⟩
      · exact ⟨none, .inl ⟨rfl, rfl⟩⟩
      · rcases hsg with rfl | rfl | rfl
        · exact ⟨some (false, ds), .inr ⟨e, _, ds, rfl, he, hd, .inr ⟨.inl rfl, rfl⟩⟩⟩
        · exact ⟨some (false, ds), .inr ⟨e, _, ds, rfl, he, hd, .inr ⟨.inr rfl, rfl⟩⟩⟩
        · exact ⟨some (true, ds), .inr ⟨e, _, ds, rfl, he, hd, .inl ⟨rfl, rfl⟩⟩⟩
    exact ⟨⟨neg, int, fr, x⟩, hi, frac, exp, rfl, hf, he⟩
  · rintro ⟨⟨neg, int, fr, x⟩, hi, ft, et, rfl, hf, he⟩
    refine .mk (by cases neg <;> simp) hi ?_ ?_
    · rcases hf with ⟨h, -⟩ | ⟨h, hd⟩
      · exact .inl h
      · exact .inr ⟨_, h, hd⟩
    · rcases he with ⟨h, -⟩ | ⟨e, sg, ds, h, he, hd, hx⟩
      · exact .inl h
      · refine .inr ⟨e, sg, ds, h, he, ?_, hd⟩
        rcases hx with ⟨h, -⟩ | ⟨h | h, -⟩
        · exact .inr (.inr h)
        · exact .inl h
        · exact .inr (.inl h)

/-! ## Reading -/

/-- without an exponent the quick reading is the exact one -/
theorem fast_none {n : Parts} {s : Str} (h : Numeral n s) (he : n.exp = none) : fast n = exactly n := by
  have hfd : ∀ c ∈ n.frac, isDigit c = true := by
    obtain ⟨-, ft, et, -, hf, -⟩ := h
    rcases hf with ⟨-, hf⟩ | ⟨-, hf⟩
    · rw [hf]; intro c hc; cases hc
    · exact digits_of hf
  have hid : ∀ c ∈ n.int, isDigit c = true := by
    rcases h.int with h | h
    · rw [h]; decide
    · exact digits_of h.1
  have hd : digitsVal (n.int ++ n.frac) < 10 ^ (n.int ++ n.frac).length :=
    digitsVal_lt fun c hc => (List.mem_append.1 hc).elim (hid c) (hfd c)
  rw [List.length_append] at hd
  unfold fast
  dsimp only
  rw [he]
  dsimp only
  split
  · rfl
  · split
    · rfl
    · unfold exactly ofDecimal
      rw [he]
      dsimp only [Option.map_none]
      split
      · rename_i h18 _ h0
        have hlt : digitsVal (n.int ++ n.frac) < 2 ^ 64 := by
          refine lt_of_lt_of_le hd (le_trans (Nat.pow_le_pow_right (by norm_num) (show _ ≤ 18 from ?_)) (by norm_num))
          rw [h0, List.length_nil]
          omega
        rw [Nat.mod_eq_of_lt hlt, h0, List.length_nil, pow_zero, conv]
      · rename_i h1 h2
        have hlen : n.int.length + n.frac.length ≤ 15 := by
          have := mt (fun h => (⟨h2, h⟩ : n.frac ≠ [] ∧ 17 ≤ n.int.length + 1 + n.frac.length)) h1
          omega
        have hlt : digitsVal (n.int ++ n.frac) < 2 ^ 53 :=
          lt_of_lt_of_le hd (le_trans (Nat.pow_le_pow_right (by norm_num) hlen) (by norm_num))
        rw [Nat.mod_eq_of_lt (lt_trans hlt (by norm_num))]
        exact div_conv (conv_units hlt) (conv_units_pow (by omega))

/-- nor with a whole number of up to 53 bits times a power of ten up to the 22nd -/
theorem fast_whole {n : Parts} {ds : Str} (hf : n.frac = []) (he : n.exp = some (false, ds)) (hd : digitsVal n.int < 2 ^ 53)
    (hx : digitsVal ds ≤ 22) : fast n = exactly n := by
  unfold fast
  dsimp only
  rw [he, hf, List.append_nil]
  dsimp only
  split
  · rfl
  · split
    · rfl
    · rw [if_neg (by omega), if_pos rfl, Nat.mod_eq_of_lt (lt_trans hd (by norm_num))]
      unfold exactly ofDecimal
      rw [he, hf, List.append_nil]
      dsimp only [Option.map_some]
      have hp : pow10 false (digitsVal ds) = conv (10 ^ digitsVal ds) := by
        unfold pow10
        rw [if_neg (by decide), show digitsVal ds / 32 * 32 = 0 by omega, show digitsVal ds % 32 = digitsVal ds by omega, pow_zero,
          mul_conv (conv_units (by norm_num)) (conv_units_pow hx), one_mul]
      rw [hp, mul_conv (conv_units hd) (conv_units_pow hx), List.length_nil, pow_zero, conv]

/-- the number of the text, as a quotient -/
theorem exactly_ratio (n : Parts) : ∃ p q : Nat, 0 < q ∧ exactly n = ofRatio p q ∧ n.value = p / q := by
  unfold exactly Parts.value Parts.exponent
  generalize digitsVal (n.int ++ n.frac) = d
  generalize n.frac.length = k
  have h10 : (10 : ℚ) ≠ 0 := by norm_num
  rcases n.exp with _ | ⟨_ | _, ds⟩
  · refine ⟨d, 10 ^ k, by positivity, rfl, ?_⟩
    dsimp only
    rw [zero_sub, zpow_neg, zpow_natCast, Nat.cast_pow, div_eq_mul_inv]; norm_num
  · refine ⟨d * 10 ^ digitsVal ds, 10 ^ k, by positivity, rfl, ?_⟩
    dsimp only
    rw [zpow_sub₀ h10, zpow_natCast, zpow_natCast]; push_cast; ring
  · refine ⟨d, 10 ^ (k + digitsVal ds), by positivity, rfl, ?_⟩
    dsimp only
    rw [zpow_sub₀ h10, zpow_neg, zpow_natCast, zpow_natCast]; push_cast
    rw [pow_add, div_eq_mul_inv, div_eq_mul_inv, mul_inv]; ring

theorem abs_ratio {p q : Nat} (hq : 0 < q) (u : Nat) :
    |(u : ℚ) / 2 ^ 1074 - p / q| = ((|(u * q : Int) - (p * 2 ^ 1074 : Nat)| : Int) : ℚ) / (2 ^ 1074 * q) := by
  have hq' : (0 : ℚ) < q := by exact_mod_cast hq
  have hU : (0 : ℚ) < 2 ^ 1074 := by positivity
  push_cast
  generalize (2 : ℚ) ^ 1074 = U at *
  rw [div_sub_div _ _ hU.ne' hq'.ne', abs_div, abs_of_pos (mul_pos hU hq'), mul_comm U (p : ℚ)]

theorem exactly_nearest (n : Parts) : Nearest (exactly n) n.value := by
  obtain ⟨p, q, hq, h1, h2⟩ := exactly_ratio n
  rw [h1, h2]
  by_cases hf : IsFinite (ofRatio p q)
  · refine .inl ⟨hf, fun g _ => ?_⟩
    have := ofRatio_nearest hq hf g
    unfold absVal
    rw [abs_ratio hq, abs_ratio hq]
    exact div_le_div_of_nonneg_right (by exact_mod_cast this) (by positivity)
  · obtain ⟨h3, h4⟩ := ofRatio_inf hq hf
    refine .inr ⟨h3, fun g hg => ?_⟩
    have hlt : ((units g * q : Nat) : ℚ) < ((p * 2 ^ 1074 : Nat) : ℚ) := Nat.cast_lt.2 (h4 g hg)
    push_cast at hlt
    have hq' : (0 : ℚ) < q := by exact_mod_cast hq
    have hU : (0 : ℚ) < 2 ^ 1074 := by positivity
    unfold absVal
    generalize (2 : ℚ) ^ 1074 = U at *
    rw [div_lt_div_iff₀ hU hq']
    exact hlt

theorem toNat_ofRatio (p q : Nat) : (ofRatio p q).toNat < 2 ^ 63 := by
  rw [ofRatio_eq, UInt64.toNat_ofNat']
  refine lt_of_le_of_lt (Nat.mod_le _ _) (lt_of_le_of_lt (min_le_right _ _) (by norm_num))

theorem toNat_exactly (n : Parts) : (exactly n).toNat < 2 ^ 63 := by
  obtain ⟨p, q, _, h, _⟩ := exactly_ratio n
  rw [h]; exact toNat_ofRatio p q

theorem toNat_fast (n : Parts) : (fast n).toNat < 2 ^ 63 := by
  unfold fast
  dsimp only
  split
  · exact toNat_exactly n
  · split
    · exact toNat_exactly n
    · split
      · split
        · exact toNat_ofRatio _ _
        · exact toNat_ofRatio _ _
      · split
        · exact toNat_exactly n
        · exact toNat_ofRatio _ _

theorem signed_spec {neg : Bool} {f : F64} (h : f.toNat < 2 ^ 63) : magBits (signed neg f) = magBits f ∧ (Negative (signed neg f) ↔ neg = true) := by
  unfold signed Negative magBits
  cases neg with
  | false => simp; omega
  | true =>
    simp only [if_true, iff_true]
    rw [UInt64.toNat_ofNat']
    omega

theorem signed_split (f : F64) : signed (decide (2 ^ 63 ≤ f.toNat)) (UInt64.ofNat (magBits f)) = f := by
  apply UInt64.toNat_inj.1
  have := f.toNat_lt
  unfold signed magBits
  by_cases h : 2 ^ 63 ≤ f.toNat
  · simp only [h, decide_true, if_true]
    rw [UInt64.toNat_ofNat', UInt64.toNat_ofNat']
    omega
  · simp only [h, decide_false, Bool.false_eq_true, if_false]
    rw [UInt64.toNat_ofNat']
    omega

theorem nearest_congr {f g : F64} {x : ℚ} (h : magBits f = magBits g) (hn : Nearest g x) : Nearest f x := by
  have ha : absVal f = absVal g := by unfold absVal units; rw [h]
  unfold Nearest IsFinite at *
  rw [h, ha]
  exact hn

/-! ## Printing -/

theorem written_sign {n : Parts} {t : Str} (h : Numeral n t) (hn : n.neg = false) (neg : Bool) :
    Numeral { n with neg := neg } ((if neg then ['-'] else []) ++ t) := by
  obtain ⟨hi, ft, et, rfl, hf, he⟩ := h
  refine ⟨hi, ft, et, ?_, hf, he⟩
  rw [hn]
  simp

theorem parseDigits_val (s : Str) : ∀ acc m, parseDigits acc s = some m → s.foldl (fun n c => 10 * n + digitVal c) acc = m := by
  induction s with
  | nil => intro acc m h; simpa [parseDigits] using h
  | cons c s ih =>
    intro acc m h
    rw [parseDigits] at h
    split at h
    · rw [List.foldl_cons, mul_comm 10]; exact ih _ m h
    · cases h

theorem digitsVal_natStr (m : Nat) : digitsVal (natStr m) = m := parseDigits_val _ 0 m (natStr_spec m).1

theorem ofRatio_zero {q : Nat} (hq : 0 < q) : ofRatio 0 q = 0 := by
  have := ofRatio_one (p := 0) hq
  rw [zero_mul] at this
  rw [this]
  have := ofRatio_of (p := 0) (q := 1) (b := 0) (by norm_num) (by norm_num) (by simp [unitsOf])
  rw [this]; rfl

theorem written_shift (u : Nat) {ds : Str} (hd : Digits ds) : Numeral ⟨false, natStr u, [], some (true, ds)⟩ (natStr u ++ 'e' :: '-' :: ds) := by
  refine ⟨?_, [], 'e' :: '-' :: ds, ?_, .inl ⟨rfl, rfl⟩, .inr ⟨'e', ['-'], ds, rfl, .inl rfl, hd, .inl ⟨rfl, rfl⟩⟩⟩
  · rcases natStr_head u with h | h
    · exact .inl h
    · exact .inr ⟨natStr_digits _, h⟩
  · simp

theorem exactly_shift {u k : Nat} {ds : Str} (hd : digitsVal ds = k) :
    exactly ⟨false, natStr (u * 5 ^ k), [], some (true, ds)⟩ = ofRatio u (2 ^ k) := by
  unfold exactly ofDecimal
  dsimp only [Option.map_some]
  rw [List.append_nil, digitsVal_natStr, hd, List.length_nil, zero_add, show (10 : Nat) = 2 * 5 from rfl, mul_pow,
    ofRatio_scale _ _ (by positivity)]

/-- the text of a float reads as the float, if it is read exactly -/
theorem format_written {f : F64} (hf : IsFinite f) :
    ∃ n, Numeral n (format f) ∧ n.neg = decide (2 ^ 63 ≤ f.toNat) ∧ exactly n = UInt64.ofNat (magBits f) := by
  unfold format
  dsimp only
  split
  · rename_i h0
    have hw : Numeral ⟨false, ['0'], [], none⟩ ['0'] := ⟨.inl rfl, [], [], rfl, .inl ⟨rfl, rfl⟩, .inl ⟨rfl, rfl⟩⟩
    refine ⟨_, written_sign hw rfl _, rfl, ?_⟩
    rw [← ofRatio_units hf, h0, ofRatio_zero (by positivity)]
    exact ofRatio_zero (by norm_num)
  · generalize (List.range 17).flatMap (fun nd => candidates (units f) (2 ^ 1074) (nd + 1)) = l
    have key : ∀ t, (∃ n, Numeral n t ∧ n.neg = false ∧ exactly n = UInt64.ofNat (magBits f)) →
        ∃ n, Numeral n ((if decide (2 ^ 63 ≤ f.toNat) then ['-'] else []) ++ t) ∧ n.neg = decide (2 ^ 63 ≤ f.toNat) ∧
          exactly n = UInt64.ofNat (magBits f) := by
      rintro t ⟨n, hw, hn, he⟩
      exact ⟨_, written_sign hw hn _, rfl, he⟩
    apply key
    cases hfind : l.find? (fun t => decide ((parts t).map (fun n => (n.neg, exactly n)) = some (false, UInt64.ofNat (magBits f)))) with
    | some t =>
      have ht := List.find?_some hfind
      obtain ⟨n, hp, hn⟩ := Option.map_eq_some_iff.1 (of_decide_eq_true ht)
      injection hn with h1 h2
      exact ⟨n, written_parts hp, h1, h2⟩
    | none =>
      rw [Option.getD_none]
      rw [← ofRatio_units hf]
      exact ⟨_, written_shift _ (digits_mk (by decide) (by decide)), rfl, exactly_shift (by decide)⟩

end VJ.Floats
