import Verif.Proof.TimeText

/-! # What is written of a time is read again -/

namespace VJ
namespace TimeText

theorem digitsOf_spec (w n : Nat) : (digitsOf w n).length = w ∧ (∀ c ∈ digitsOf w n, isDigit c = true) ∧
    digitsVal (digitsOf w n) = n % 10 ^ w := by
  induction w generalizing n with
  | zero => exact ⟨rfl, fun _ h => (List.not_mem_nil h).elim, by simp [digitsOf, digitsVal, Nat.mod_one]⟩
  | succ w ih =>
    obtain ⟨h1, h2, h3⟩ := ih (n / 10)
    have hd := digit_val (k := n % 10) (by omega)
    refine ⟨by simp [digitsOf, h1], ?_, ?_⟩
    · intro c hc
      rcases List.mem_append.1 hc with hc | hc
      · exact h2 c hc
      · rw [List.mem_singleton.1 hc]; exact hd.1
    · rw [digitsOf, digitsVal_snoc, h3, hd.2, Nat.pow_succ, Nat.mul_comm (10 ^ w) 10, Nat.mod_mul]
      omega

theorem wide_digitsOf {w n : Nat} (h : n < 10 ^ w) : Wide w (digitsOf w n) n := by
  obtain ⟨h1, h2, h3⟩ := digitsOf_spec w n
  exact ⟨h1, digits_iff.2 ⟨h2, by rw [h3, Nat.mod_eq_of_lt h]⟩⟩

theorem wide_appendInt {w : Nat} {x : Int} (h0 : 0 ≤ x) (h : x < (10 ^ w : Nat)) : Wide w (appendInt x w) x.toNat := by
  obtain ⟨n, rfl⟩ := Int.eq_ofNat_of_zero_le h0
  have hn : n < 10 ^ w := by exact_mod_cast h
  have : appendInt (n : Int) w = digitsOf w n := by
    unfold appendInt
    rw [if_neg (by omega)]
    simp [hn]
  rw [this]
  exact wide_digitsOf hn

theorem trailing {s : Str} : ∃ k, s = (s.reverse.dropWhile (· == '0')).reverse ++ List.replicate k '0' := by
  obtain ⟨r, rfl⟩ : ∃ r, s = r.reverse := ⟨s.reverse, by simp⟩
  rw [List.reverse_reverse]
  induction r with
  | nil => exact ⟨0, rfl⟩
  | cons c r ih =>
    by_cases h : c = '0'
    · subst h
      obtain ⟨k, hk⟩ := ih
      refine ⟨k + 1, ?_⟩
      simp only [List.reverse_cons, beq_self_eq_true, List.dropWhile_cons_of_pos]
      rw [List.replicate_succ', ← List.append_assoc, ← hk]
    · exact ⟨0, by simp [h]⟩

theorem digitsVal_zeros (k : Nat) : digitsVal (List.replicate k '0') = 0 := by
  induction k with
  | zero => rfl
  | succ k ih => rw [List.replicate_succ', digitsVal_snoc, ih]; decide

theorem fraction_appendNano {n : Nat} (h : n < 10 ^ 9) : Fraction (appendNano n) n := by
  unfold appendNano
  split
  · rename_i h0; subst h0; exact .none
  · rename_i h0
    obtain ⟨h1, h2, h3⟩ := digitsOf_spec 9 n
    obtain ⟨k, hk⟩ := trailing (s := digitsOf 9 n)
    generalize hu : ((digitsOf 9 n).reverse.dropWhile (· == '0')).reverse = u at hk ⊢
    rw [Nat.mod_eq_of_lt h, hk, digitsVal_append, digitsVal_zeros, List.length_replicate, Nat.add_zero] at h3
    have hlen : u.length + k = 9 := by rw [hk] at h1; simpa using h1
    have hdig : ∀ c ∈ u, isDigit c = true := fun c hc => h2 c (by rw [hk]; exact List.mem_append_left _ hc)
    have := Fraction.some (c := '.') (s := u) (n := digitsVal u) (.inl rfl)
      (by rintro rfl; simp [digitsVal] at h3; omega) (digits_iff.2 ⟨hdig, rfl⟩)
    rwa [show digitsVal u * 10 ^ 9 / 10 ^ u.length = n by
      rw [← hlen, Nat.pow_add, ← Nat.mul_assoc, Nat.mul_right_comm, Nat.mul_div_cancel _ (Nat.pow_pos (by decide)), h3]] at this

theorem zone_appendZone {off : Int} (h1 : -90000 < off) (h2 : off < 90000) : Zone (appendZone off) (off.tdiv 60 * 60) := by
  unfold appendZone
  split
  · rename_i h; subst h; exact .utc
  · dsimp only
    generalize hz : off.tdiv 60 = z
    have hb : -1500 < z ∧ z < 1500 := by
      rcases Int.le_total 0 off with h | h
      · rw [Int.tdiv_eq_ediv_of_nonneg h] at hz; omega
      · have : (-off).tdiv 60 = -z := by rw [Int.neg_tdiv, hz]
        rw [Int.tdiv_eq_ediv_of_nonneg (by omega)] at this; omega
    have ha := wide_appendInt (w := 2) (x := ((z.natAbs / 60 : Nat) : Int)) (by omega) (by simp; omega)
    have hb' := wide_appendInt (w := 2) (x := ((z.natAbs % 60 : Nat) : Int)) (by omega) (by simp; omega)
    rw [Int.toNat_natCast] at ha hb'
    split
    · rename_i hneg
      have := Zone.west ha hb' (by omega) (by omega)
      rwa [show -(3600 * ((z.natAbs / 60 : Nat) : Int) + 60 * ((z.natAbs % 60 : Nat) : Int)) = z * 60 by omega] at this
    · rename_i hpos
      have := Zone.east ha hb' (by omega) (by omega)
      rwa [show (3600 * ((z.natAbs / 60 : Nat) : Int) + 60 * ((z.natAbs % 60 : Nat) : Int)) = z * 60 by omega] at this

/-! ## All elements -/

/-- a number comes first -/
def Chunk.digit : Chunk → Bool
  | .year | .month | .day | .hour | .minute | .second => true
  | _ => false

/-- An element of the layout does not swallow the beginning of the next one. -/
def follows : Chunk → Chunk → Bool
  | .lit c, .lit d => !(c == ' ' && d == ' ')
  | .lit c, .frac => c != ' '
  | .second, .lit d => !isPoint d
  | .frac, .lit d => !isPoint d && !isDigit d
  | .frac, .frac => false
  | .frac, c => !c.digit
  | _, _ => true

/-- so from one element to the next -/
def chained : List Chunk → Bool
  | a :: b :: l => follows a b && chained (b :: l)
  | _ => true

/-- the day, in the time's zone -/
def localDay (t : Time) : Int := (t.ns + t.off * 1000000000) / 86400000000000
/-- the second of the day -/
def localClock (t : Time) : Int := (t.ns + t.off * 1000000000) % 86400000000000 / 1000000000
/-- the nanosecond of the second -/
def localNano (t : Time) : Nat := ((t.ns + t.off * 1000000000) % 1000000000).toNat

/-- what an element says about the time -/
def Chunk.set (t : Time) (d : Date) (f : Fields) : Chunk → Fields
  | .lit _ => f
  | .year => { f with year := d.year }
  | .month => { f with month := d.month }
  | .day => { f with day := d.day }
  | .hour => { f with hour := (localClock t / 3600).toNat }
  | .minute => { f with minute := (localClock t % 3600 / 60).toNat }
  | .second => { f with second := (localClock t % 60).toNat }
  | .frac => { f with nano := localNano t }
  | .zone => { f with off := t.off.tdiv 60 * 60 }

theorem localClock_bounds (t : Time) : 0 ≤ localClock t ∧ localClock t < 86400 := by unfold localClock; omega
theorem localNano_lt (t : Time) : localNano t < 10 ^ 9 := by unfold localNano; omega

theorem wide_ne_nil {w n : Nat} {s : Str} (h : Wide (w + 1) s n) : ∃ c r, s = c :: r ∧ isDigit c = true := by
  obtain ⟨h1, h2⟩ := h
  cases s with
  | nil => simp at h1
  | cons c r => exact ⟨c, r, rfl, (digits_iff.1 h2).1 c (by simp)⟩

/-- the texts of the elements -/
structure TextOf (t : Time) (d : Date) : Prop where
  year : 0 ≤ d.year → d.year ≤ 9999 → Wide 4 (Chunk.text t .year) d.year.toNat
  month : Wide 2 (Chunk.text t .month) d.month
  day : Wide 2 (Chunk.text t .day) d.day
  hour : Wide 2 (Chunk.text t .hour) (localClock t / 3600).toNat
  minute : Wide 2 (Chunk.text t .minute) (localClock t % 3600 / 60).toNat
  second : Wide 2 (Chunk.text t .second) (localClock t % 60).toNat
  frac : Fraction (Chunk.text t .frac) (localNano t)
  zone : -90000 < t.off → t.off < 90000 → Zone (Chunk.text t .zone) (t.off.tdiv 60 * 60)

theorem textOf {t : Time} {d : Date} (hd : DayIs (localDay t) d) : TextOf t d := by
  have hdate := dateOf_iff.2 hd
  unfold localDay at hdate
  have hr := (dayIs_real hd).1
  have hl : monthLength d.year d.month ≤ 31 := by unfold monthLength; split <;> try split <;> try split
                                                  all_goals omega
  obtain ⟨r1, r2, r3, r4⟩ := hr
  have hc := localClock_bounds t
  have e : localClock t = (t.ns + t.off * 1000000000) % 86400000000000 / 1000000000 := rfl
  constructor
  · intro h1 h2
    simp only [Chunk.text, hdate]
    exact wide_appendInt h1 (by simp; omega)
  · simp only [Chunk.text, hdate]
    simpa using wide_appendInt (w := 2) (x := (d.month : Int)) (by omega) (by simp; omega)
  · simp only [Chunk.text, hdate]
    simpa using wide_appendInt (w := 2) (x := (d.day : Int)) (by omega) (by simp; omega)
  · simp only [Chunk.text, ← e]
    exact wide_appendInt (w := 2) (by omega) (by simp; omega)
  · simp only [Chunk.text, ← e]
    exact wide_appendInt (w := 2) (by omega) (by simp; omega)
  · simp only [Chunk.text, ← e]
    exact wide_appendInt (w := 2) (by omega) (by simp; omega)
  · exact fraction_appendNano (localNano_lt t)
  · exact fun h1 h2 => zone_appendZone h1 h2

/-- what the layout asks of the time: a year of four digits, an offset of at most 24 hours
and 59 minutes -/
def Fits (l : List Chunk) (t : Time) (d : Date) : Prop :=
  (.year ∈ l → 0 ≤ d.year ∧ d.year ≤ 9999) ∧ (.zone ∈ l → -90000 < t.off ∧ t.off < 90000)

theorem text_head {t : Time} {d : Date} (hT : TextOf t d) {b : Chunk} {l : List Chunk} (hf : Fits (b :: l) t d) (hb : b ≠ .frac) :
    ∃ c r, Chunk.text t b = c :: r ∧
      ((b.digit = true ∧ isDigit c = true) ∨ b = .lit c ∨ (b = .zone ∧ (c = 'Z' ∨ c = '+' ∨ c = '-'))) := by
  cases b with
  | lit c => exact ⟨c, [], rfl, .inr (.inl rfl)⟩
  | year =>
    obtain ⟨c, r, h1, h2⟩ := wide_ne_nil (hT.year (hf.1 (by simp)).1 (hf.1 (by simp)).2)
    exact ⟨c, r, h1, .inl ⟨rfl, h2⟩⟩
  | month => obtain ⟨c, r, h1, h2⟩ := wide_ne_nil hT.month; exact ⟨c, r, h1, .inl ⟨rfl, h2⟩⟩
  | day => obtain ⟨c, r, h1, h2⟩ := wide_ne_nil hT.day; exact ⟨c, r, h1, .inl ⟨rfl, h2⟩⟩
  | hour => obtain ⟨c, r, h1, h2⟩ := wide_ne_nil hT.hour; exact ⟨c, r, h1, .inl ⟨rfl, h2⟩⟩
  | minute => obtain ⟨c, r, h1, h2⟩ := wide_ne_nil hT.minute; exact ⟨c, r, h1, .inl ⟨rfl, h2⟩⟩
  | second => obtain ⟨c, r, h1, h2⟩ := wide_ne_nil hT.second; exact ⟨c, r, h1, .inl ⟨rfl, h2⟩⟩
  | frac => exact absurd rfl hb
  | zone =>
    have := hT.zone (hf.2 (by simp)).1 (hf.2 (by simp)).2
    generalize Chunk.text t .zone = z at this
    generalize t.off.tdiv 60 * 60 = o at this
    cases this
    · exact ⟨_, _, rfl, .inr (.inr ⟨rfl, .inl rfl⟩)⟩
    · exact ⟨_, _, rfl, .inr (.inr ⟨rfl, .inr (.inl rfl)⟩)⟩
    · exact ⟨_, _, rfl, .inr (.inr ⟨rfl, .inr (.inr rfl)⟩)⟩

theorem digit_not_point {c : Char} (h : isDigit c = true) : isPoint c = false ∧ c ≠ ' ' := by
  refine ⟨?_, ?_⟩
  · cases hp : isPoint c with
    | false => rfl
    | true => rcases isPoint_iff.1 hp with rfl | rfl <;> revert h <;> decide
  · rintro rfl; revert h; decide

theorem format_cons (b : Chunk) (l : List Chunk) (t : Time) : format (b :: l) t = Chunk.text t b ++ format l t := rfl

/-- Whatever is written by a layout is read again by it. -/
theorem loop_format {t : Time} {d : Date} (hT : TextOf t d) (hr : d.Real) : ∀ {l : List Chunk}, chained l = true → Fits l t d →
    ∀ {f : Fields}, (f.nano = 0 ∨ f.nano = localNano t) →
    parseLoop l (format l t) f = some (l.foldl (Chunk.set t d) f)
  | [], _, _, f, _ => by simp [format, parseLoop]
  | a :: l, hch, hfit, f, hn => by
    have hl : chained l = true := by
      cases l with
      | nil => rfl
      | cons b l => simp only [chained, Bool.and_eq_true] at hch; exact hch.2
    have hfl : Fits l t d := ⟨fun h => hfit.1 (List.mem_cons_of_mem _ h), fun h => hfit.2 (List.mem_cons_of_mem _ h)⟩
    have ih := fun f' (hn' : f'.nano = 0 ∨ f'.nano = localNano t) => loop_format hT hr hl hfl (f := f') hn'
    have hfol : ∀ b l', l = b :: l' → follows a b = true := by
      rintro b l' rfl
      simp only [chained, Bool.and_eq_true] at hch; exact hch.1
    have hcb := localClock_bounds t
    rw [format_cons, List.foldl_cons]
    cases a with
    | lit c =>
      by_cases hc : c = ' '
      · subst hc
        have hhead : (format l t).head? ≠ some ' ' := by
          cases l with
          | nil => simp [format]
          | cons b l' =>
            have hfb := hfol b l' rfl
            have hb : b ≠ .frac := by rintro rfl; simp [follows] at hfb
            obtain ⟨x, r, hx, hk⟩ := text_head hT hfl hb
            rw [format_cons, hx]
            simp only [List.cons_append, List.head?_cons, ne_eq, Option.some.injEq]
            rcases hk with ⟨_, hk⟩ | hk | ⟨_, hk⟩
            · exact (digit_not_point hk).2
            · subst hk; rintro rfl; simp [follows] at hfb
            · rcases hk with rfl | rfl | rfl <;> decide
        have := step_space (l := l) (f := f) (k := 0) hhead
        simp only [List.replicate_zero] at this
        rw [show Chunk.text t (.lit ' ') = [' '] from rfl, this]
        exact ih f hn
      · rw [show Chunk.text t (.lit c) = [c] from rfl, List.singleton_append, step_lit hc]
        exact ih f hn
    | year =>
      have hy := hfit.1 (by simp)
      rw [step_year (hT.year hy.1 hy.2), show ((d.year.toNat : Nat) : Int) = d.year by omega]
      exact ih { f with year := d.year } hn
    | month =>
      rw [step_month hT.month hr.1 hr.2.1]
      exact ih { f with month := d.month } hn
    | day =>
      rw [step_day hT.day]
      exact ih { f with day := d.day } hn
    | hour =>
      rw [step_hour (.inl hT.hour) (by omega)]
      exact ih { f with hour := (localClock t / 3600).toNat } hn
    | minute =>
      rw [step_minute hT.minute (by omega)]
      exact ih { f with minute := (localClock t % 3600 / 60).toNat } hn
    | second =>
      have hlt : (localClock t % 60).toNat < 60 := by omega
      by_cases hfr : l.head? = some .frac
      · cases l with
        | nil => simp at hfr
        | cons b l' =>
          simp only [List.head?_cons, Option.some.injEq] at hfr
          subst hfr
          rw [step_second_frac hT.second hlt]
          exact ih { f with second := (localClock t % 60).toNat } hn
      · have hp : NoPoint (format l t) := by
          cases l with
          | nil => intro c hc; simp [format] at hc
          | cons b l' =>
            have hfb := hfol b l' rfl
            have hb : b ≠ .frac := by rintro rfl; simp at hfr
            obtain ⟨x, r, hx, hk⟩ := text_head hT hfl hb
            intro c hc
            rw [format_cons, hx] at hc
            simp only [List.cons_append, List.head?_cons, Option.some.injEq] at hc
            subst hc
            rcases hk with ⟨_, hk⟩ | hk | ⟨_, hk⟩
            · exact (digit_not_point hk).1
            · subst hk; simpa [follows] using hfb
            · rcases hk with rfl | rfl | rfl <;> decide
        rw [parseLoop]
        simp only [getnum_true.2 ⟨_, hT.second, rfl⟩, takeFrac_noPoint hp]
        rw [if_neg (by omega), ite_self]
        exact ih { f with second := (localClock t % 60).toNat } hn
    | frac =>
      have hp : NoDigit (format l t) ∧ NoPoint (format l t) := by
        cases l with
        | nil => constructor <;> intro c hc <;> simp [format] at hc
        | cons b l' =>
          have hfb := hfol b l' rfl
          have hb : b ≠ .frac := by rintro rfl; simp [follows] at hfb
          obtain ⟨x, r, hx, hk⟩ := text_head hT hfl hb
          have hx' : isDigit x = false ∧ isPoint x = false := by
            rcases hk with ⟨hd, hk⟩ | hk | ⟨_, hk⟩
            · cases b <;> simp [follows, Chunk.digit] at hfb hd
            · subst hk
              simp only [follows, Bool.and_eq_true, Bool.not_eq_true'] at hfb
              exact ⟨hfb.2, hfb.1⟩
            · rcases hk with rfl | rfl | rfl <;> decide
          constructor <;> intro c hc <;> rw [format_cons, hx] at hc <;>
            simp only [List.cons_append, List.head?_cons, Option.some.injEq] at hc <;> subst hc
          · exact hx'.1
          · exact hx'.2
      have hfrac := hT.frac
      by_cases h0 : Chunk.text t .frac = []
      · have hz : localNano t = 0 := by
          rw [h0] at hfrac
          generalize localNano t = n at hfrac
          cases hfrac; rfl
        have hn' : f.nano = 0 := by omega
        rw [step_frac hfrac hn' hp.1 hp.2]
        exact ih { f with nano := localNano t } (.inr rfl)
      · rw [parseLoop]
        simp only [takeFrac_fraction hfrac h0 hp.1]
        exact ih { f with nano := localNano t } (.inr rfl)
    | zone =>
      have hz := hfit.2 (by simp)
      rw [step_zone (hT.zone hz.1 hz.2)]
      exact ih { f with off := t.off.tdiv 60 * 60 } hn

end TimeText
end VJ
