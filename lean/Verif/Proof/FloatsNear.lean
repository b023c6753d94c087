import Verif.Proof.Floats
import Mathlib.Algebra.Order.Ring.Pow
import Mathlib.Tactic.FieldSimp
import Mathlib.Tactic.GCongr

/-! # Floats: how far from the number a reading with several roundings can be -/

namespace VJ.Floats
open TimeText (digitsVal digitsVal_lt)

/-- what one rounding leaves, at least -/
def eps : ℚ := 1 - 1 / 2 ^ 53

theorem eps_pos : 0 < eps := by unfold eps; norm_num
theorem eps_le : eps ≤ 1 := by unfold eps; norm_num
theorem epsPow_pos (k : Nat) : 0 < eps ^ k := pow_pos eps_pos k
theorem epsPow_le (k : Nat) : eps ^ k ≤ 1 := pow_le_one₀ eps_pos.le eps_le

/-- `a` is `x` up to `k` roundings -/
def Near (k : Nat) (a x : ℚ) : Prop := x * eps ^ k ≤ a ∧ a * eps ^ k ≤ x

theorem Near.refl {a : ℚ} : Near 0 a a := by simp [Near]

theorem Near.mono {j k : Nat} {a x : ℚ} (h : Near j a x) (ha : 0 ≤ a) (hx : 0 ≤ x) (hjk : j ≤ k) : Near k a x := by
  have hp : eps ^ k ≤ eps ^ j := pow_le_pow_of_le_one eps_pos.le eps_le hjk
  exact ⟨le_trans (mul_le_mul_of_nonneg_left hp hx) h.1, le_trans (mul_le_mul_of_nonneg_left hp ha) h.2⟩

theorem Near.trans {j k : Nat} {a b c : ℚ} (h : Near j a b) (h' : Near k b c) : Near (j + k) a c := by
  constructor
  · rw [pow_add, mul_comm (eps ^ j), ← mul_assoc]
    exact le_trans (mul_le_mul_of_nonneg_right h'.1 (epsPow_pos j).le) h.1
  · rw [pow_add, ← mul_assoc]
    exact le_trans (mul_le_mul_of_nonneg_right h.2 (epsPow_pos k).le) h'.2

theorem Near.symm {k : Nat} {a b : ℚ} (h : Near k a b) : Near k b a := ⟨h.2, h.1⟩

theorem Near.mul {j k : Nat} {a b x y : ℚ} (h : Near j a x) (h' : Near k b y) (ha : 0 ≤ a) (hb : 0 ≤ b) (hx : 0 ≤ x) (hy : 0 ≤ y) :
    Near (j + k) (a * b) (x * y) := by
  constructor
  · rw [pow_add, mul_mul_mul_comm]
    exact mul_le_mul h.1 h'.1 (mul_nonneg hy (epsPow_pos k).le) ha
  · rw [pow_add, mul_mul_mul_comm]
    exact mul_le_mul h.2 h'.2 (mul_nonneg hb (epsPow_pos k).le) hx

theorem Near.inv {k : Nat} {b y : ℚ} (h : Near k b y) (hb : 0 < b) (hy : 0 < y) : Near k b⁻¹ y⁻¹ := by
  have hp := epsPow_pos k
  constructor
  · rw [inv_mul_le_iff₀ hy, ← div_eq_mul_inv, le_div_iff₀ hb, mul_comm]
    exact h.2
  · rw [inv_mul_le_iff₀ hb, ← div_eq_mul_inv, le_div_iff₀ hy, mul_comm]
    exact h.1

theorem Near.div {j k : Nat} {a b x y : ℚ} (h : Near j a x) (h' : Near k b y) (ha : 0 ≤ a) (hb : 0 < b) (hx : 0 ≤ x) (hy : 0 < y) :
    Near (j + k) (a / b) (x / y) := by
  rw [div_eq_mul_inv, div_eq_mul_inv]
  exact h.mul (h'.inv hb hy) ha (inv_pos.2 hb).le hx (inv_pos.2 hy).le

theorem Near.close {a x : ℚ} (h : Near 6 a x) : |a - x| ≤ x / 2 ^ 50 := by
  have h6 : 1 - 6 / 2 ^ 53 ≤ eps ^ 6 := by unfold eps; norm_num
  have hup : a * (1 - 6 / 2 ^ 53) ≤ x ∨ a < 0 := by
    rcases lt_or_ge a 0 with h0 | h0
    · exact .inr h0
    · exact .inl (le_trans (mul_le_mul_of_nonneg_left h6 h0) h.2)
  have hx : 0 ≤ x := by
    by_contra hneg
    have hneg := not_le.1 hneg
    have h1 := h.1
    have h2 := h.2
    have hp : eps ^ 6 < 1 := by unfold eps; norm_num
    have hpp := epsPow_pos 6
    have ha : a < 0 := by
      by_contra hcon
      have := mul_nonneg (not_lt.1 hcon) hpp.le
      linarith
    nlinarith
  have hlo : x * (1 - 6 / 2 ^ 53) ≤ a := le_trans (mul_le_mul_of_nonneg_left h6 hx) h.1
  rw [abs_le]
  rcases hup with hup | h0
  · constructor
    · norm_num at *; linarith
    · norm_num at *; linarith
  · exfalso
    norm_num at hlo
    linarith

/-- `2 ^ k`, out of the way of evaluation -/
def two (k : Nat) : ℚ := 2 ^ k
theorem two_eq (k : Nat) : two k = 2 ^ k := rfl
theorem two_pos' (k : Nat) : 0 < two k := pow_pos (by norm_num) k
theorem two_mono {m n : Nat} (h : m ≤ n) : two m ≤ two n := pow_le_pow_right₀ (by norm_num) h
theorem inv_mono {m n : Nat} (h : m ≤ n) : 1 / two n ≤ 1 / two m := one_div_le_one_div_of_le (two_pos' _) (two_mono h)
theorem two_one (k : Nat) : 1 ≤ two k := one_le_pow₀ (by norm_num)

theorem absVal_nonneg (f : F64) : 0 ≤ absVal f := by unfold absVal; positivity

/-- not too large to be finite -/
theorem ofRatio_finite {p q : Nat} (hq : 0 < q) (h : (p : ℚ) / q ≤ two 1010) : IsFinite (ofRatio p q) := by
  by_contra hf
  have hg : IsFinite (UInt64.ofNat (2046 * 2 ^ 52)) := by
    unfold IsFinite; rw [magBits_ofNat (by norm_num)]; norm_num
  have h1 := (ofRatio_inf hq hf).2 _ hg
  have hu : units (UInt64.ofNat (2046 * 2 ^ 52)) = 2 ^ 52 * 2 ^ 2045 := by
    rw [units_eq, magBits_ofNat (by norm_num)]
    have := unitsOf_pack (s := 2045) (d := 2 ^ 52) (by norm_num) (.inr le_rfl)
    rw [← this, show 2046 * 2 ^ 52 = 2045 * 2 ^ 52 + 2 ^ 52 by norm_num]
  rw [hu] at h1
  have hq' : (0 : ℚ) < q := by exact_mod_cast hq
  rw [div_le_iff₀ hq', two_eq] at h
  have h2 : p ≤ 2 ^ 1010 * q := by exact_mod_cast h
  have h3 : p * 2 ^ 1074 ≤ 2 ^ 1010 * q * 2 ^ 1074 := Nat.mul_le_mul_right _ h2
  have h4 : 2 ^ 1010 * q * 2 ^ 1074 ≤ 2 ^ 52 * 2 ^ 2045 * q := by
    rw [mul_right_comm, ← pow_add, ← pow_add]
    exact Nat.mul_le_mul_right _ (Nat.pow_le_pow_right (by norm_num) (by norm_num))
  exact absurd h1 (not_lt.2 (le_trans h3 h4))

/-- one rounding -/
theorem ofRatio_err {p q : Nat} (hq : 0 < q) (hf : IsFinite (ofRatio p q)) (hn : 2 ^ 52 * q ≤ p * 2 ^ 1074) :
    2 ^ 53 * |(units (ofRatio p q) * q : Int) - (p * 2 ^ 1074 : Nat)| ≤ (p * 2 ^ 1074 : Nat) := by
  rw [units_ofRatio hq hf]
  generalize p * 2 ^ 1074 = P at *
  obtain ⟨-, h2⟩ := shift_bounds (P := P) hq
  generalize shiftOf P q = s at *
  have hs : 2 ^ (52 + s) * q ≤ P := by
    rcases h2 with rfl | h2
    · exact hn
    · exact h2.2
  obtain ⟨e1, e2⟩ := halfEven_err (a := P) (b := q * 2 ^ s) (by positivity)
  have e : ((halfEven P (q * 2 ^ s) * 2 ^ s : Nat) * q : Int) = halfEven P (q * 2 ^ s) * (q * 2 ^ s : Nat) := by push_cast; ring
  rw [e]
  have hs' : (2 ^ 52 : Int) * (q * 2 ^ s : Nat) ≤ P := by
    have : 2 ^ 52 * (q * 2 ^ s) ≤ P := by
      calc 2 ^ 52 * (q * 2 ^ s) = 2 ^ (52 + s) * q := by rw [pow_add]; ring
        _ ≤ P := hs
    exact_mod_cast this
  linarith

theorem ofRatio_near {p q : Nat} (hq : 0 < q) (hf : IsFinite (ofRatio p q)) (hn : 1 / two 1022 ≤ (p : ℚ) / q) :
    Near 1 (absVal (ofRatio p q)) (p / q) := by
  have hq' : (0 : ℚ) < q := by exact_mod_cast hq
  have hn' : 2 ^ 52 * q ≤ p * 2 ^ 1074 := by
    rw [two_eq, div_le_div_iff₀ (by positivity) hq', one_mul] at hn
    have h1 : q ≤ p * 2 ^ 1022 := by exact_mod_cast hn
    calc 2 ^ 52 * q ≤ 2 ^ 52 * (p * 2 ^ 1022) := Nat.mul_le_mul_left _ h1
      _ = p * 2 ^ 1074 := by rw [mul_left_comm, ← pow_add]
  have he := ofRatio_err hq hf hn'
  have habs := abs_ratio (p := p) hq (units (ofRatio p q))
  have hx : |absVal (ofRatio p q) - p / q| ≤ (p / q) / 2 ^ 53 := by
    unfold absVal
    rw [habs]
    have hc : ((2 ^ 53 * |(units (ofRatio p q) * q : Int) - (p * 2 ^ 1074 : Nat)| : Int) : ℚ) ≤ ((p * 2 ^ 1074 : Nat) : ℚ) := by exact_mod_cast he
    push_cast only [Int.cast_mul, Int.cast_pow, Int.cast_ofNat] at hc
    generalize ((|(units (ofRatio p q) * q : Int) - (p * 2 ^ 1074 : Nat)| : Int) : ℚ) = E at *
    push_cast at hc
    have hU : (0 : ℚ) < 2 ^ 1074 := by positivity
    generalize (2 : ℚ) ^ 1074 = U at *
    rw [div_le_iff₀ (by positivity)]
    have h53 : (0 : ℚ) < 2 ^ 53 := by positivity
    generalize (2 : ℚ) ^ 53 = V at *
    have : (p : ℚ) / q / V * (U * q) = p * U / V := by field_simp
    rw [this, le_div_iff₀ h53]
    linarith
  have hp0 : (0 : ℚ) ≤ p / q := div_nonneg (Nat.cast_nonneg _) hq'.le
  generalize (p : ℚ) / q = x at *
  generalize absVal (ofRatio p q) = a at *
  rw [abs_le] at hx
  unfold Near eps
  rw [pow_one]
  norm_num at *
  constructor <;> linarith

theorem conv_near {n : Nat} (h0 : 0 < n) (h : (n : ℚ) ≤ two 1010) : Near 1 (absVal (conv n)) n := by
  have h1 : ((n : Nat) : ℚ) / ((1 : Nat) : ℚ) = n := by rw [Nat.cast_one, div_one]
  have hf : IsFinite (conv n) := ofRatio_finite (by norm_num) (by rw [h1]; exact h)
  have := ofRatio_near (p := n) (q := 1) (by norm_num) hf (by
    rw [h1]
    have hn : (1 : ℚ) ≤ n := by exact_mod_cast h0
    refine le_trans ?_ hn
    rw [div_le_one (two_pos' _)]
    exact two_one _)
  rw [h1] at this
  exact this

theorem mul_near {a b : F64} (hlo : 1 / two 1022 ≤ absVal a * absVal b) (hhi : absVal a * absVal b ≤ two 1010) :
    IsFinite (mul a b) ∧ Near 1 (absVal (mul a b)) (absVal a * absVal b) := by
  have h2 : (2 : Nat) ^ 2148 = 2 ^ 1074 * 2 ^ 1074 := by rw [← pow_add]
  have he : ((units a * units b : Nat) : ℚ) / ((2 ^ 2148 : Nat) : ℚ) = absVal a * absVal b := by
    unfold absVal
    rw [h2, Nat.cast_mul, Nat.cast_mul, Nat.cast_pow, Nat.cast_ofNat, mul_div_mul_comm]
  have hf : IsFinite (mul a b) := ofRatio_finite (by positivity) (by rw [he]; exact hhi)
  have := ofRatio_near (p := units a * units b) (q := 2 ^ 2148) (by positivity) hf (by rw [he]; exact hlo)
  rw [he] at this
  exact ⟨hf, this⟩

theorem div_near {a b : F64} (hb : 0 < absVal b) (hlo : 1 / two 1022 ≤ absVal a / absVal b) (hhi : absVal a / absVal b ≤ two 1010) :
    IsFinite (div a b) ∧ Near 1 (absVal (div a b)) (absVal a / absVal b) := by
  have hU : (0 : ℚ) < 2 ^ 1074 := by positivity
  have he : ((units a : Nat) : ℚ) / ((units b : Nat) : ℚ) = absVal a / absVal b := by
    unfold absVal
    rw [div_div_div_cancel_right₀ hU.ne']
  have hub : 0 < units b := by
    rcases Nat.eq_zero_or_pos (units b) with h | h
    · unfold absVal at hb; rw [h] at hb; simp at hb
    · exact h
  have hf : IsFinite (div a b) := ofRatio_finite hub (by rw [he]; exact hhi)
  have := ofRatio_near (p := units a) (q := units b) hub hf (by rw [he]; exact hlo)
  rw [he] at this
  exact ⟨hf, this⟩

/-- up to ten roundings keep a number between half and twice itself -/
theorem Near.bounds {k : Nat} {a x : ℚ} (h : Near k a x) (hk : k ≤ 10) (hx : 0 ≤ x) : x / 2 ≤ a ∧ a ≤ 2 * x := by
  have hp : (1 : ℚ) / 2 ≤ eps ^ k := by
    refine le_trans ?_ (pow_le_pow_of_le_one eps_pos.le eps_le hk)
    unfold eps; norm_num
  have h1 := mul_le_mul_of_nonneg_left hp hx
  have ha : 0 ≤ a := le_trans (mul_nonneg hx (epsPow_pos k).le) h.1
  have h2 := mul_le_mul_of_nonneg_left hp ha
  have h3 := h.1
  have h4 := h.2
  constructor <;> linarith

theorem pow_mono10 {m n : Nat} (h : m ≤ n) : (10 : ℚ) ^ m ≤ 10 ^ n := pow_le_pow_right₀ (by norm_num) h

theorem ten300 {n : Nat} (hn : n ≤ 300) : 2 * (10 : ℚ) ^ n ≤ two 1000 := by
  have h : 2 * 10 ^ 300 ≤ 2 ^ 1000 := by decide +kernel
  have h' : 2 * 10 ^ n ≤ 2 ^ 1000 := le_trans (Nat.mul_le_mul_left _ (Nat.pow_le_pow_right (by norm_num) hn)) h
  calc 2 * (10 : ℚ) ^ n = ((2 * 10 ^ n : Nat) : ℚ) := by rw [Nat.cast_mul, Nat.cast_pow]; rfl
    _ ≤ ((2 ^ 1000 : Nat) : ℚ) := Nat.cast_le.2 h'
    _ = two 1000 := by rw [Nat.cast_pow]; rfl

theorem conv10_near {k : Nat} (h : k ≤ 300) : Near 1 (absVal (conv (10 ^ k))) (10 ^ k) := by
  have hc : ((10 ^ k : Nat) : ℚ) = 10 ^ k := by rw [Nat.cast_pow]; rfl
  have := conv_near (n := 10 ^ k) (by positivity) (by
    rw [hc]
    have h2 := ten300 h
    have h3 := two_mono (show 1000 ≤ 1010 by norm_num)
    have h4 : (0 : ℚ) < 10 ^ k := pow_pos (by norm_num) _
    linarith)
  rw [hc] at this
  exact this

theorem pow10_near (m : Bool) {n : Nat} (hn : n ≤ 300) : Near 3 (absVal (pow10 m n)) (if m then ((10 : ℚ) ^ n)⁻¹ else 10 ^ n) := by
  have hsplit : n / 32 * 32 + n % 32 = n := Nat.div_add_mod' n 32
  have hi : n / 32 * 32 ≤ 300 := by omega
  have hj : n % 32 ≤ 300 := by omega
  unfold pow10
  generalize n / 32 * 32 = i at *
  generalize n % 32 = j at *
  have hB := conv10_near hj
  have pi : (0 : ℚ) < 10 ^ i := pow_pos (by norm_num) _
  have pj : (0 : ℚ) < 10 ^ j := pow_pos (by norm_num) _
  have pn : (0 : ℚ) < 10 ^ n := pow_pos (by norm_num) _
  have hprod : (10 : ℚ) ^ i * 10 ^ j = 10 ^ n := by rw [← pow_add, hsplit]
  have hle : 2 * (10 : ℚ) ^ n ≤ two 1000 := ten300 hn
  have h1 : (1 : ℚ) ≤ 10 ^ n := one_le_pow₀ (by norm_num)
  have h1022 : 1 / two 1022 ≤ 1 / two 1 := inv_mono (by norm_num)
  have h1010 : two 1000 ≤ two 1010 := two_mono (by norm_num)
  cases m with
  | false =>
    simp only [Bool.false_eq_true, if_false]
    have hAB := (conv10_near hi).mul hB (absVal_nonneg _) (absVal_nonneg _) pi.le pj.le
    rw [hprod] at hAB
    obtain ⟨b1, b2⟩ := hAB.bounds (by norm_num) pn.le
    rw [two_eq 1, pow_one] at h1022
    exact ((mul_near (by linarith) (by linarith)).2.trans hAB)
  | true =>
    simp only [if_true]
    have hA : Near 1 (absVal (ofRatio 1 (10 ^ i))) (10 ^ i)⁻¹ := by
      have hc : ((1 : Nat) : ℚ) / ((10 ^ i : Nat) : ℚ) = (10 ^ i)⁻¹ := by
        rw [Nat.cast_pow, Nat.cast_one, one_div]; rfl
      have hi1 : (1 : ℚ) ≤ 10 ^ i := one_le_pow₀ (by norm_num)
      have hle1 : ((10 : ℚ) ^ i)⁻¹ ≤ 1 := inv_le_one_of_one_le₀ hi1
      have h11 : (1 : ℚ) ≤ two 1010 := two_one _
      have := ofRatio_near (p := 1) (q := 10 ^ i) (by positivity) (ofRatio_finite (by positivity) (by rw [hc]; linarith)) (by
        rw [hc, ← one_div]
        refine one_div_le_one_div_of_le pi ?_
        have h3 := ten300 hi
        have h4 : two 1000 ≤ two 1022 := two_mono (by norm_num)
        linarith)
      rw [hc] at this
      exact this
    obtain ⟨c1, c2⟩ := hB.bounds (by norm_num) pj.le
    have hBpos : 0 < absVal (conv (10 ^ j)) := by linarith
    have hAB := hA.div hB (absVal_nonneg _) hBpos (inv_pos.2 pi).le pj
    have hq : ((10 : ℚ) ^ i)⁻¹ / 10 ^ j = (10 ^ n)⁻¹ := by rw [div_eq_mul_inv, ← mul_inv, hprod]
    rw [hq] at hAB
    obtain ⟨b1, b2⟩ := hAB.bounds (by norm_num) (inv_pos.2 pn).le
    have hinv : ((10 : ℚ) ^ n)⁻¹ ≤ 1 := inv_le_one_of_one_le₀ h1
    have hlow : 1 / two 1022 ≤ ((10 : ℚ) ^ n)⁻¹ / 2 := by
      rw [div_eq_mul_inv _ (2 : ℚ), ← mul_inv, ← one_div]
      refine one_div_le_one_div_of_le (by linarith) ?_
      have h4 : two 1000 ≤ two 1022 := two_mono (by norm_num)
      linarith
    have h2 : two 1 ≤ two 1010 := two_mono (by norm_num)
    rw [two_eq 1, pow_one] at h2
    exact ((div_near hBpos (by linarith) (by linarith)).2.trans hAB)

theorem absVal_zero : absVal 0 = 0 := by
  have : units 0 = 0 := by decide +kernel
  unfold absVal; rw [this]; simp

theorem exactly_near {n : Parts} (hlo : 1 / two 1000 ≤ n.value) (hhi : n.value ≤ two 1000) :
    IsFinite (exactly n) ∧ Near 1 (absVal (exactly n)) n.value := by
  obtain ⟨p, q, hq, h1, h2⟩ := exactly_ratio n
  rw [h2] at hlo hhi ⊢
  rw [h1]
  have hf := ofRatio_finite hq (le_trans hhi (two_mono (show 1000 ≤ 1010 by norm_num)))
  exact ⟨hf, ofRatio_near hq hf (le_trans (inv_mono (show 1000 ≤ 1022 by norm_num)) hlo)⟩

/-- the digits and the exponent, apart -/
theorem value_split (n : Parts) {minus : Bool} {ds : Str} (he : n.exp = some (minus, ds)) :
    n.value = (digitsVal (n.int ++ n.frac) : ℚ) / 10 ^ n.frac.length * (if minus then ((10 : ℚ) ^ digitsVal ds)⁻¹ else 10 ^ digitsVal ds) := by
  have h10 : (10 : ℚ) ≠ 0 := by norm_num
  unfold Parts.value Parts.exponent
  rw [he]
  cases minus with
  | false =>
    simp only [Bool.false_eq_true, if_false]
    rw [zpow_sub₀ h10, zpow_natCast, zpow_natCast]; ring
  | true =>
    simp only [if_true]
    rw [zpow_sub₀ h10, zpow_neg, zpow_natCast, zpow_natCast]; ring

/-- The quick reading makes at most five roundings. -/
theorem fast_near {n : Parts} {s : Str} (h : Numeral n s) (hlo : 1 / two 1000 ≤ n.value) (hhi : n.value ≤ two 1000) :
    IsFinite (fast n) ∧ Near 5 (absVal (fast n)) n.value := by
  have hpos : 0 < n.value := lt_of_lt_of_le (div_pos one_pos (two_pos' _)) hlo
  have hex : IsFinite (exactly n) ∧ Near 5 (absVal (exactly n)) n.value := by
    obtain ⟨h1, h2⟩ := exactly_near hlo hhi
    exact ⟨h1, h2.mono (absVal_nonneg _) hpos.le (by norm_num)⟩
  by_cases hnone : n.exp = none
  · rw [fast_none h hnone]; exact hex
  obtain ⟨⟨minus, ds⟩, he⟩ := Option.ne_none_iff_exists'.1 hnone
  have hfd : ∀ c ∈ n.frac, isDigit c = true := by
    obtain ⟨-, ft, et, -, hf, -⟩ := h
    rcases hf with ⟨-, hf⟩ | ⟨-, hf⟩
    · rw [hf]; intro c hc; cases hc
    · exact digits_of hf
  have hid : ∀ c ∈ n.int, isDigit c = true := by
    rcases h.int with h | h
    · rw [h]; decide
    · exact digits_of h.1
  have hd : digitsVal (n.int ++ n.frac) < 10 ^ (n.int ++ n.frac).length :=
    digitsVal_lt fun c hc => (List.mem_append.1 hc).elim (hid c) (hfd c)
  rw [List.length_append] at hd
  have hval := value_split n he
  unfold fast
  dsimp only
  rw [he]
  dsimp only
  split
  · exact hex
  · rename_i h18
    split
    · exact hex
    · rename_i h17
      split
      · exact hex
      · rename_i h300
        have hd0 : 0 < digitsVal (n.int ++ n.frac) := by
          rcases Nat.eq_zero_or_pos (digitsVal (n.int ++ n.frac)) with h0 | h0
          · rw [hval, h0] at hpos; simp at hpos
          · exact h0
        have hq0 : (0 : ℚ) < 10 ^ n.frac.length := pow_pos (by norm_num) _
        have hf : Near 1 (absVal (if n.frac = [] then conv (digitsVal (n.int ++ n.frac) % 2 ^ 64) else
            div (conv (digitsVal (n.int ++ n.frac) % 2 ^ 64)) (conv (10 ^ n.frac.length))))
            ((digitsVal (n.int ++ n.frac) : ℚ) / 10 ^ n.frac.length) := by
          split
          · rename_i h0
            have hlt : digitsVal (n.int ++ n.frac) < 2 ^ 64 := by
              refine lt_of_lt_of_le hd (le_trans (Nat.pow_le_pow_right (by norm_num) (show _ ≤ 18 from ?_)) (by norm_num))
              rw [h0, List.length_nil]
              omega
            rw [Nat.mod_eq_of_lt hlt]
            have hl : n.frac.length = 0 := by rw [h0]; rfl
            rw [hl, pow_zero, div_one]
            refine conv_near hd0 ?_
            have h64 : ((digitsVal (n.int ++ n.frac) : Nat) : ℚ) ≤ ((2 ^ 64 : Nat) : ℚ) := Nat.cast_le.2 hlt.le
            rw [Nat.cast_pow] at h64
            exact le_trans h64 (two_mono (show 64 ≤ 1010 by norm_num))
          · rename_i h2
            have hlen : n.int.length + n.frac.length ≤ 15 := by
              have := mt (fun h => (⟨h2, h⟩ : n.frac ≠ [] ∧ 17 ≤ n.int.length + 1 + n.frac.length)) h17
              omega
            have hlt : digitsVal (n.int ++ n.frac) < 2 ^ 53 :=
              lt_of_lt_of_le hd (le_trans (Nat.pow_le_pow_right (by norm_num) hlen) (by norm_num))
            rw [Nat.mod_eq_of_lt (lt_trans hlt (by norm_num)), div_conv (conv_units hlt) (conv_units_pow (by omega))]
            have hc : ((digitsVal (n.int ++ n.frac) : Nat) : ℚ) / ((10 ^ n.frac.length : Nat) : ℚ) =
                (digitsVal (n.int ++ n.frac) : ℚ) / 10 ^ n.frac.length := by rw [Nat.cast_pow]; rfl
            rw [← hc]
            have h1 : (1 : ℚ) ≤ (digitsVal (n.int ++ n.frac) : Nat) := by exact_mod_cast hd0
            have h10 : (1 : ℚ) ≤ 10 ^ n.frac.length := one_le_pow₀ (by norm_num)
            have hup : ((digitsVal (n.int ++ n.frac) : Nat) : ℚ) ≤ two 53 := by
              have : ((digitsVal (n.int ++ n.frac) : Nat) : ℚ) ≤ ((2 ^ 53 : Nat) : ℚ) := Nat.cast_le.2 hlt.le
              rw [Nat.cast_pow] at this
              exact this
            refine ofRatio_near (by positivity) (ofRatio_finite (by positivity) ?_) ?_
            · rw [hc]
              refine le_trans (div_le_self (Nat.cast_nonneg _) h10) (le_trans hup (two_mono (by norm_num)))
            · rw [hc]
              refine div_le_div₀ (Nat.cast_nonneg _) h1 hq0 ?_
              have h3 := ten300 (n := n.frac.length) (by omega)
              have h4 : two 1000 ≤ two 1022 := two_mono (by norm_num)
              linarith
        have hP := pow10_near minus (n := digitsVal ds) (by omega)
        have hE : 0 < (if minus then ((10 : ℚ) ^ digitsVal ds)⁻¹ else 10 ^ digitsVal ds) := by
          have : (0 : ℚ) < 10 ^ digitsVal ds := pow_pos (by norm_num) _
          split
          · exact inv_pos.2 this
          · exact this
        have hprod := hf.mul hP (absVal_nonneg _) (absVal_nonneg _) (div_nonneg (Nat.cast_nonneg _) hq0.le) hE.le
        rw [← hval] at hprod
        obtain ⟨b1, b2⟩ := hprod.bounds (by norm_num) hpos.le
        have e1 : 1 / two 1022 ≤ n.value / 2 := by
          have e2 : 1 / two 1000 / 2 = 1 / two 1001 := by
            rw [div_div, two_eq, two_eq, pow_succ 2 1000]
          have e3 : 1 / two 1022 ≤ 1 / two 1001 := inv_mono (by norm_num)
          rw [← e2] at e3
          linarith
        have e4 : 2 * n.value ≤ two 1010 := by
          have e5 : two 1001 = two 1000 * 2 := by rw [two_eq, two_eq, pow_succ]
          have e6 : two 1001 ≤ two 1010 := two_mono (by norm_num)
          linarith
        obtain ⟨h1, h2⟩ := mul_near (le_trans e1 b1) (le_trans b2 e4)
        exact ⟨h1, h2.trans hprod⟩

theorem exactly_zero {n : Parts} (h : n.value = 0) : exactly n = 0 := by
  obtain ⟨p, q, hq, h1, h2⟩ := exactly_ratio n
  rw [h] at h2
  have hq' : (q : ℚ) ≠ 0 := by exact_mod_cast hq.ne'
  have hp : p = 0 := by
    have := (div_eq_zero_iff.1 h2.symm).resolve_right hq'
    exact_mod_cast this
  rw [h1, hp, ofRatio_zero hq]

theorem units_zero : units 0 = 0 := by decide +kernel

theorem fast_zero {n : Parts} (h : n.value = 0) : fast n = 0 := by
  have hd : digitsVal (n.int ++ n.frac) = 0 := by
    unfold Parts.value at h
    have := (mul_eq_zero.1 h).resolve_right (zpow_ne_zero _ (by norm_num))
    exact_mod_cast this
  have hc : conv 0 = 0 := ofRatio_zero (by norm_num)
  have hf : n.frac.length ≤ 22 → (if n.frac = [] then conv (digitsVal (n.int ++ n.frac) % 2 ^ 64) else
      div (conv (digitsVal (n.int ++ n.frac) % 2 ^ 64)) (conv (10 ^ n.frac.length))) = 0 := by
    intro hl
    rw [hd, Nat.zero_mod, hc]
    split
    · rfl
    · unfold div
      rw [units_zero, conv_units_pow hl, ofRatio_zero (by positivity)]
  unfold fast
  dsimp only
  split
  · exact exactly_zero h
  · split
    · exact exactly_zero h
    · rename_i h17
      have hl : n.frac.length ≤ 22 := by
        by_cases h0 : n.frac = []
        · rw [h0]; simp
        · have := mt (fun h => (⟨h0, h⟩ : n.frac ≠ [] ∧ 17 ≤ n.int.length + 1 + n.frac.length)) h17
          omega
      rw [hf hl]
      split
      · rfl
      · split
        · exact exactly_zero h
        · unfold mul
          rw [units_zero, zero_mul, ofRatio_zero (by positivity)]

/-- the float 2 ^ 1000 -/
theorem big_float : ∃ g : F64, IsFinite g ∧ absVal g = two 1000 := by
  refine ⟨UInt64.ofNat (2022 * 2 ^ 52 + 2 ^ 52), ?_, ?_⟩
  · unfold IsFinite; rw [magBits_ofNat (by norm_num)]; norm_num
  · unfold absVal
    rw [units_eq, magBits_ofNat (by norm_num), unitsOf_pack (by norm_num) (.inr le_rfl), two_eq, Nat.cast_mul, Nat.cast_pow, Nat.cast_pow,
      Nat.cast_ofNat, ← pow_add, div_eq_iff (pow_pos (by norm_num) _).ne', ← pow_add]

/-- the number in the text of a float is not far from the float -/
theorem value_bounds {f : F64} {x : ℚ} (h : Nearest f x) (hf : IsFinite f) (hlo : 1 / two 999 ≤ absVal f) (hhi : absVal f ≤ two 999) (hx : 0 ≤ x) :
    1 / two 1000 ≤ x ∧ x ≤ two 1000 := by
  rcases h with ⟨-, h⟩ | ⟨h, -⟩
  · have h0 := h 0 (by unfold IsFinite; decide +kernel)
    obtain ⟨g, hg, hga⟩ := big_float
    have h1 := h g hg
    rw [absVal_zero, zero_sub, abs_neg, abs_of_nonneg hx] at h0
    rw [hga] at h1
    have e1 : 1 / two 999 / 2 = 1 / two 1000 := by rw [div_div, two_eq, two_eq, pow_succ 2 999]
    have e2 : two 1000 = two 999 * 2 := by rw [two_eq, two_eq, pow_succ]
    have e3 := two_pos' 999
    have h3 := le_abs_self (absVal f - x)
    constructor
    · rw [← e1]; linarith
    · by_contra hcon
      have hcon := not_le.1 hcon
      rw [abs_of_nonpos (by linarith), abs_of_nonpos (by linarith)] at h1
      linarith
  · unfold IsFinite at hf; omega

end VJ.Floats
