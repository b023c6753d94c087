import Verif.Model.TimeText
import Verif.Spec.TimeText

/-! # The calendar -/

namespace VJ
namespace TimeText

theorem isLeap_iff {y : Int} : isLeap y = true ↔ LeapYear y := by
  unfold isLeap LeapYear
  simp only [Bool.and_eq_true, Bool.or_eq_true, beq_iff_eq, bne_iff_ne, ne_eq]
  omega

theorem daysIn_eq {y : Int} {m : Nat} (h1 : 1 ≤ m) (h2 : m ≤ 12) : daysIn (isLeap y) m = monthLength y m := by
  have h : m = 1 ∨ m = 2 ∨ m = 3 ∨ m = 4 ∨ m = 5 ∨ m = 6 ∨ m = 7 ∨ m = 8 ∨ m = 9 ∨ m = 10 ∨ m = 11 ∨ m = 12 := by omega
  rcases h with rfl | rfl | rfl | rfl | rfl | rfl | rfl | rfl | rfl | rfl | rfl | rfl <;>
    simp [daysIn, monthLength, isLeap_iff]
  split <;> simp_all

/-- the length of a year -/
def yearLength (leap : Bool) : Int := if leap then 366 else 365

theorem monthStart_next {leap : Bool} {m : Nat} (h1 : 1 ≤ m) (h2 : m < 12) :
    monthStart leap (m + 1) = monthStart leap m + daysIn leap m := by
  have h : m = 1 ∨ m = 2 ∨ m = 3 ∨ m = 4 ∨ m = 5 ∨ m = 6 ∨ m = 7 ∨ m = 8 ∨ m = 9 ∨ m = 10 ∨ m = 11 := by omega
  cases leap <;> rcases h with rfl | rfl | rfl | rfl | rfl | rfl | rfl | rfl | rfl | rfl | rfl <;> rfl

theorem monthStart_last {leap : Bool} : monthStart leap 12 + 31 = yearLength leap := by cases leap <;> rfl

theorem monthOf_table : ∀ leap : Bool, ∀ n : Fin 366, (n.val : Int) < yearLength leap →
    1 ≤ monthOf leap n.val ∧ monthOf leap n.val ≤ 12 ∧ monthStart leap (monthOf leap n.val) ≤ n.val ∧
      (n.val : Int) < monthStart leap (monthOf leap n.val) + daysIn leap (monthOf leap n.val) := by decide +kernel

theorem monthOf_spec {leap : Bool} {yd : Int} (h0 : 0 ≤ yd) (h : yd < yearLength leap) :
    1 ≤ monthOf leap yd ∧ monthOf leap yd ≤ 12 ∧ monthStart leap (monthOf leap yd) ≤ yd ∧
      yd < monthStart leap (monthOf leap yd) + daysIn leap (monthOf leap yd) := by
  obtain ⟨n, rfl⟩ := Int.eq_ofNat_of_zero_le h0
  have hn : n < 366 := by unfold yearLength at h; split at h <;> omega
  exact monthOf_table leap ⟨n, hn⟩ h

/-- days before a year -/
def yearStart (y : Int) : Int := 365 * (y - 1) + (y - 1) / 4 - (y - 1) / 100 + (y - 1) / 400

theorem yearStart_next (y : Int) : yearStart (y + 1) = yearStart y + yearLength (isLeap y) := by
  unfold yearStart yearLength
  by_cases h : isLeap y = true
  · rw [h]
    unfold isLeap at h
    simp only [Bool.and_eq_true, Bool.or_eq_true, beq_iff_eq, bne_iff_ne, ne_eq] at h
    simp only [if_true]
    omega
  · have h' : isLeap y = false := by simpa using h
    rw [h']
    unfold isLeap at h
    simp only [Bool.and_eq_true, Bool.or_eq_true, beq_iff_eq, bne_iff_ne, ne_eq] at h
    simp only [Bool.false_eq_true, if_false]
    omega

theorem yearStart_mono {a b : Int} (h : a ≤ b) : yearStart a ≤ yearStart b := by
  unfold yearStart
  omega

theorem yearStart_decomp {a c q k : Int} (c0 : 0 ≤ c) (c3 : c ≤ 3) (q0 : 0 ≤ q) (q24 : q ≤ 24) (k0 : 0 ≤ k) (k3 : k ≤ 3) :
    yearStart (400 * a + 100 * c + 4 * q + k + 1) = 146097 * a + 36524 * c + 1461 * q + 365 * k := by
  unfold yearStart
  have h1 : (400 * a + 100 * c + 4 * q + k + 1 - 1) / 4 = 100 * a + 25 * c + q := by omega
  have h2 : (400 * a + 100 * c + 4 * q + k + 1 - 1) / 100 = 4 * a + c := by omega
  have h3 : (400 * a + 100 * c + 4 * q + k + 1 - 1) / 400 = a := by omega
  rw [h1, h2, h3]
  omega

theorem yearStart_decomp_next {a c q k : Int} (c0 : 0 ≤ c) (c3 : c ≤ 3) (q0 : 0 ≤ q) (q24 : q ≤ 24) (k0 : 0 ≤ k) (k3 : k ≤ 3) :
    yearStart (400 * a + 100 * c + 4 * q + k + 1 + 1) =
      146097 * a + 36524 * c + 1461 * q + 365 * k + if k = 3 ∧ (q ≠ 24 ∨ c = 3) then 366 else 365 := by
  rw [yearStart_next, yearStart_decomp c0 c3 q0 q24 k0 k3, yearLength]
  congr 1
  have : isLeap (400 * a + 100 * c + 4 * q + k + 1) = true ↔ k = 3 ∧ (q ≠ 24 ∨ c = 3) := by
    unfold isLeap
    simp only [Bool.and_eq_true, Bool.or_eq_true, beq_iff_eq, bne_iff_ne, ne_eq]
    omega
  simp only [this]

theorem yearDay_spec (n : Int) : yearStart (yearDay n).1 + (yearDay n).2 = n ∧ 0 ≤ (yearDay n).2 ∧
    (yearDay n).2 < yearLength (isLeap (yearDay n).1) := by
  have key : yearStart (yearDay n).1 + (yearDay n).2 = n ∧ 0 ≤ (yearDay n).2 ∧
      n < yearStart ((yearDay n).1 + 1) := by
    unfold yearDay
    dsimp only
    generalize ha : n / 146097 = a
    generalize hr : n % 146097 = r
    generalize hc : (if r / 36524 ≥ 4 then 3 else r / 36524 : Int) = c
    generalize hr1 : r - 36524 * c = r1
    generalize hq : r1 / 1461 = q
    generalize hr2 : r1 - 1461 * q = r2
    generalize hk : (if r2 / 365 ≥ 4 then 3 else r2 / 365 : Int) = k
    have hr' : 0 ≤ r ∧ r < 146097 := by omega
    have hc' : 0 ≤ c ∧ c ≤ 3 ∧ 0 ≤ r1 ∧ (r1 < 36524 ∨ (c = 3 ∧ r1 ≤ 36524)) := by split at hc <;> omega
    have hq' : 0 ≤ q ∧ q ≤ 24 ∧ 0 ≤ r2 ∧ r2 < 1461 ∧ (q = 24 → c ≠ 3 → r2 < 1460) := by omega
    have hk' : 0 ≤ k ∧ k ≤ 3 ∧ 0 ≤ r2 - 365 * k ∧ (r2 - 365 * k < 365 ∨ (k = 3 ∧ r2 - 365 * k ≤ 365)) := by split at hk <;> omega
    obtain ⟨c0, c3, _, _⟩ := hc'
    obtain ⟨q0, q24, _, _, _⟩ := hq'
    obtain ⟨k0, k3, _, _⟩ := hk'
    clear hc hk hq
    rw [yearStart_decomp c0 c3 q0 q24 k0 k3, yearStart_decomp_next c0 c3 q0 q24 k0 k3]
    have hn : n = 146097 * a + r := by omega
    refine ⟨by omega, by omega, ?_⟩
    split
    · omega
    · omega
  rw [yearStart_next] at key
  omega

theorem dayNumber_eq (y : Int) (m : Nat) (d : Int) : dayNumber y m d = yearStart y + monthStart (isLeap y) m + (d - 1) := rfl

/-- the date of a day is in the calendar and is that day -/
theorem dateOf_spec (n : Int) : ∃ d : Date, d.Real ∧ dateOf n = (d.year, d.month, (d.day : Int)) ∧
    dayNumber d.year d.month d.day = n := by
  obtain ⟨h1, h2, h3⟩ := yearDay_spec n
  obtain ⟨h4, h5, h6, h7⟩ := monthOf_spec h2 h3
  have hl := daysIn_eq (y := (yearDay n).1) h4 h5
  refine ⟨⟨(yearDay n).1, monthOf (isLeap (yearDay n).1) (yearDay n).2,
    ((yearDay n).2 - monthStart (isLeap (yearDay n).1) (monthOf (isLeap (yearDay n).1) (yearDay n).2) + 1).toNat⟩, ⟨h4, h5, ?_, ?_⟩, ?_, ?_⟩
  · dsimp only; omega
  · dsimp only; omega
  · simp only [dateOf]
    congr 2
    omega
  · rw [dayNumber_eq]; dsimp only; omega

/-- days are numbered without gaps -/
theorem dayNumber_next {a b : Date} (ha : a.Real) (h : NextDay a b) :
    dayNumber b.year b.month b.day = dayNumber a.year a.month a.day + 1 ∧ b.Real := by
  cases h with
  | day h =>
    refine ⟨?_, ha.1, ha.2.1, ?_, ?_⟩
    · simp only [dayNumber_eq]; omega
    · dsimp only; omega
    · dsimp only; omega
  | @month y m h =>
    have h1 : 1 ≤ m := ha.1
    have hl := daysIn_eq (y := y) h1 (by omega)
    have hn := monthStart_next (leap := isLeap y) h1 h
    refine ⟨?_, ?_, ?_, ?_, ?_⟩
    · simp only [dayNumber_eq]; omega
    · dsimp only; omega
    · dsimp only; omega
    · dsimp only; omega
    · dsimp only; unfold monthLength; split <;> try split <;> try split
      all_goals omega
  | @year y =>
    have := yearStart_next y
    have h2 := monthStart_last (leap := isLeap y)
    have h3 : monthStart (isLeap (y + 1)) 1 = 0 := by cases isLeap (y + 1) <;> rfl
    refine ⟨?_, Nat.le_refl 1, by dsimp only; omega, Nat.le_refl 1, by simp [monthLength]⟩
    simp only [dayNumber_eq]
    omega

theorem monthStart_table : ∀ leap : Bool, ∀ m : Fin 13, ∀ m' : Fin 13, 1 ≤ m.val → m.val < m'.val →
    monthStart leap m.val + daysIn leap m.val ≤ monthStart leap m'.val := by decide +kernel

theorem month_in_year {leap : Bool} {m : Nat} (h1 : 1 ≤ m) (h2 : m ≤ 12) :
    0 ≤ monthStart leap m ∧ monthStart leap m + daysIn leap m ≤ yearLength leap := by
  have h : ∀ leap : Bool, ∀ m : Fin 13, 1 ≤ m.val →
      0 ≤ monthStart leap m.val ∧ monthStart leap m.val + daysIn leap m.val ≤ yearLength leap := by decide +kernel
  exact h leap ⟨m, by omega⟩ h1

theorem day_in_year {d : Date} (h : d.Real) :
    yearStart d.year ≤ dayNumber d.year d.month d.day ∧ dayNumber d.year d.month d.day < yearStart (d.year + 1) := by
  obtain ⟨h1, h2, h3, h4⟩ := h
  have := month_in_year (leap := isLeap d.year) h1 h2
  rw [daysIn_eq h1 h2] at this
  rw [yearStart_next, dayNumber_eq]
  omega

/-- different dates are different days -/
theorem dayNumber_inj {a b : Date} (ha : a.Real) (hb : b.Real)
    (h : dayNumber a.year a.month a.day = dayNumber b.year b.month b.day) : a = b := by
  have h1 := day_in_year ha
  have h2 := day_in_year hb
  have hy : a.year = b.year := by
    rcases Int.lt_trichotomy a.year b.year with h3 | h3 | h3
    · have := yearStart_mono (a := a.year + 1) (b := b.year) (by omega)
      omega
    · exact h3
    · have := yearStart_mono (a := b.year + 1) (b := a.year) (by omega)
      omega
  obtain ⟨ya, ma, da⟩ := a
  obtain ⟨yb, mb, db⟩ := b
  dsimp only at hy h h1 h2
  subst hy
  obtain ⟨a1, a2, a3, a4⟩ := ha
  obtain ⟨b1, b2, b3, b4⟩ := hb
  dsimp only at a1 a2 a3 a4 b1 b2 b3 b4
  have la := daysIn_eq (y := ya) a1 a2
  have lb := daysIn_eq (y := ya) b1 b2
  simp only [dayNumber_eq] at h
  have hm : ma = mb := by
    rcases Nat.lt_trichotomy ma mb with h3 | h3 | h3
    · have := monthStart_table (isLeap ya) ⟨ma, by omega⟩ ⟨mb, by omega⟩ a1 h3
      dsimp only at this
      omega
    · exact h3
    · have := monthStart_table (isLeap ya) ⟨mb, by omega⟩ ⟨ma, by omega⟩ b1 h3
      dsimp only at this
      omega
  subst hm
  have : da = db := by omega
  rw [this]

theorem exists_nextDay {a : Date} (ha : a.Real) : ∃ b, NextDay a b := by
  obtain ⟨y, m, d⟩ := a
  obtain ⟨h1, h2, h3, h4⟩ := ha
  dsimp only at h1 h2 h3 h4
  by_cases hd : d < monthLength y m
  · exact ⟨_, .day hd⟩
  · have : d = monthLength y m := by omega
    subst this
    by_cases hm : m < 12
    · exact ⟨_, .month hm⟩
    · have : m = 12 := by omega
      subst this
      exact ⟨_, .year⟩

theorem dayIs_real {n : Int} {d : Date} (h : DayIs n d) : d.Real ∧ dayNumber d.year d.month d.day = n := by
  induction h with
  | start => exact ⟨by decide, by decide⟩
  | next h hn ih =>
    obtain ⟨h1, h2⟩ := dayNumber_next ih.1 hn
    exact ⟨h2, by omega⟩
  | prev h ha hn ih =>
    obtain ⟨h1, h2⟩ := dayNumber_next ha hn
    exact ⟨ha, by omega⟩

theorem exists_dayIs_nat (i : Nat) : (∃ d, DayIs i d) ∧ ∃ d, DayIs (-(i : Int)) d := by
  induction i with
  | zero => exact ⟨⟨_, .start⟩, ⟨_, .start⟩⟩
  | succ i ih =>
    obtain ⟨⟨d, hd⟩, ⟨d', hd'⟩⟩ := ih
    constructor
    · obtain ⟨b, hb⟩ := exists_nextDay (dayIs_real hd).1
      exact ⟨b, by simpa using DayIs.next hd hb⟩
    · obtain ⟨a, ha, _, hn⟩ := dateOf_spec (-(i : Int) - 1)
      obtain ⟨b, hb⟩ := exists_nextDay ha
      have h1 := dayNumber_next ha hb
      have h2 := dayIs_real hd'
      have : b = d' := dayNumber_inj h1.2 h2.1 (by omega)
      subst this
      have h3 := DayIs.prev hd' ha hb
      rw [show -(i : Int) - 1 = -((i + 1 : Nat) : Int) by omega] at h3
      exact ⟨a, h3⟩

theorem exists_dayIs (n : Int) : ∃ d, DayIs n d := by
  obtain ⟨i, rfl | rfl⟩ := Int.eq_nat_or_neg n
  · exact (exists_dayIs_nat i).1
  · exact (exists_dayIs_nat i).2

/-- Counting days gives the dates of the formula. -/
theorem dayIs_iff {n : Int} {d : Date} : DayIs n d ↔ d.Real ∧ dayNumber d.year d.month d.day = n := by
  refine ⟨dayIs_real, fun h => ?_⟩
  obtain ⟨d', hd'⟩ := exists_dayIs n
  have h' := dayIs_real hd'
  rwa [dayNumber_inj h.1 h'.1 (by omega)]

theorem dateOf_iff {n : Int} {d : Date} : dateOf n = (d.year, d.month, (d.day : Int)) ↔ DayIs n d := by
  obtain ⟨e, he, h1, h2⟩ := dateOf_spec n
  rw [dayIs_iff, h1]
  constructor
  · intro h
    obtain ⟨y, m, k⟩ := e
    obtain ⟨y', m', k'⟩ := d
    simp only [Prod.mk.injEq] at h
    obtain ⟨rfl, rfl, h⟩ := h
    have : k = k' := by omega
    subst this
    exact ⟨he, h2⟩
  · intro h
    rw [dayNumber_inj h.1 he (by omega)]

end TimeText
end VJ
