import Verif.Proof.Calendar

/-! # Reading and writing times -/

namespace VJ
namespace TimeText

/-! ## Digits -/

theorem isDigit_iff {c : Char} : isDigit c = true ↔ ∃ k, k < 10 ∧ c = Char.ofNat (48 + k) := by
  unfold isDigit
  simp only [Bool.and_eq_true, decide_eq_true_eq]
  constructor
  · rintro ⟨h1, h2⟩
    refine ⟨c.toNat - 48, by omega, ?_⟩
    rw [show 48 + (c.toNat - 48) = c.toNat by omega, Char.ofNat_toNat]
  · rintro ⟨k, hk, rfl⟩
    have h : k = 0 ∨ k = 1 ∨ k = 2 ∨ k = 3 ∨ k = 4 ∨ k = 5 ∨ k = 6 ∨ k = 7 ∨ k = 8 ∨ k = 9 := by omega
    rcases h with rfl | rfl | rfl | rfl | rfl | rfl | rfl | rfl | rfl | rfl <;> decide

theorem digit_val {k : Nat} (hk : k < 10) : isDigit (Char.ofNat (48 + k)) = true ∧ digitVal (Char.ofNat (48 + k)) = k := by
  have h : k = 0 ∨ k = 1 ∨ k = 2 ∨ k = 3 ∨ k = 4 ∨ k = 5 ∨ k = 6 ∨ k = 7 ∨ k = 8 ∨ k = 9 := by omega
  rcases h with rfl | rfl | rfl | rfl | rfl | rfl | rfl | rfl | rfl | rfl <;> decide

theorem digitVal_lt {c : Char} (h : isDigit c = true) : digitVal c < 10 := by
  obtain ⟨k, hk, rfl⟩ := isDigit_iff.1 h
  rw [(digit_val hk).2]; exact hk

theorem digitsVal_snoc (s : Str) (c : Char) : digitsVal (s ++ [c]) = 10 * digitsVal s + digitVal c := by
  simp [digitsVal]

theorem digits_iff {s : Str} {n : Nat} : Digits s n ↔ (∀ c ∈ s, isDigit c = true) ∧ digitsVal s = n := by
  constructor
  · intro h
    induction h with
    | nil => exact ⟨fun _ h => (List.not_mem_nil h).elim, rfl⟩
    | snoc h hk hc ih =>
      subst hc
      refine ⟨fun c hm => ?_, ?_⟩
      · rcases List.mem_append.1 hm with hm | hm
        · exact ih.1 c hm
        · rw [List.mem_singleton.1 hm]; exact (digit_val hk).1
      · rw [digitsVal_snoc, (digit_val hk).2, ih.2]
  · rintro ⟨h, rfl⟩
    obtain ⟨r, rfl⟩ : ∃ r, s = r.reverse := ⟨s.reverse, by simp⟩
    induction r with
    | nil => exact .nil
    | cons c r ih =>
      rw [List.reverse_cons] at h ⊢
      rw [digitsVal_snoc]
      obtain ⟨k, hk, rfl⟩ := isDigit_iff.1 (h c (by simp))
      rw [(digit_val hk).2]
      exact .snoc (ih fun c hc => h c (List.mem_append_left _ hc)) hk rfl

theorem wide_unique {w : Nat} {s : Str} {n m : Nat} (h : Wide w s n) (h' : Wide w s m) : n = m := by
  rw [← (digits_iff.1 h.2).2, ← (digits_iff.1 h'.2).2]

theorem wide1_iff {s : Str} {n : Nat} : Wide 1 s n ↔ ∃ a, s = [a] ∧ isDigit a = true ∧ n = digitVal a := by
  unfold Wide
  rw [digits_iff]
  constructor
  · rintro ⟨h1, h2, h3⟩
    match s, h1 with
    | [a], _ => exact ⟨a, rfl, h2 a (by simp), by rw [← h3]; simp [digitsVal]⟩
  · rintro ⟨a, rfl, h, rfl⟩
    exact ⟨rfl, by simpa using h, by simp [digitsVal]⟩

theorem wide2_iff {s : Str} {n : Nat} : Wide 2 s n ↔ ∃ a b, s = [a, b] ∧ isDigit a = true ∧ isDigit b = true ∧
    n = 10 * digitVal a + digitVal b := by
  unfold Wide
  rw [digits_iff]
  constructor
  · rintro ⟨h1, h2, h3⟩
    match s, h1 with
    | [a, b], _ => exact ⟨a, b, rfl, h2 a (by simp), h2 b (by simp), by rw [← h3]; simp [digitsVal]⟩
  · rintro ⟨a, b, rfl, h, h', rfl⟩
    exact ⟨rfl, by simp [h, h'], by simp [digitsVal]⟩

theorem wide4_iff {s : Str} {n : Nat} : Wide 4 s n ↔ ∃ a b c d, s = [a, b, c, d] ∧ isDigit a = true ∧ isDigit b = true ∧
    isDigit c = true ∧ isDigit d = true ∧ n = digitsVal [a, b, c, d] := by
  unfold Wide
  rw [digits_iff]
  constructor
  · rintro ⟨h1, h2, h3⟩
    match s, h1 with
    | [a, b, c, d], _ => exact ⟨a, b, c, d, rfl, h2 a (by simp), h2 b (by simp), h2 c (by simp), h2 d (by simp), h3.symm⟩
  · rintro ⟨a, b, c, d, rfl, h1, h2, h3, h4, rfl⟩
    exact ⟨rfl, by simp [h1, h2, h3, h4], rfl⟩

/-- no digit comes next -/
def NoDigit (s : Str) : Prop := ∀ c, s.head? = some c → isDigit c = false

/-- no fraction comes next -/
def NoPoint (s : Str) : Prop := ∀ c, s.head? = some c → isPoint c = false

theorem getnum_true {s r : Str} {n : Nat} : getnum true s = some (n, r) ↔ ∃ w, Wide 2 w n ∧ s = w ++ r := by
  constructor
  · intro h
    unfold getnum at h
    split at h
    · rename_i a b s
      split at h
      · rename_i ha
        split at h
        · rename_i hb
          cases h
          exact ⟨[a, b], wide2_iff.2 ⟨a, b, rfl, ha, hb, rfl⟩, rfl⟩
        · simp at h
      · cases h
    · simp at h
    · cases h
  · rintro ⟨w, hw, rfl⟩
    obtain ⟨a, b, rfl, ha, hb, rfl⟩ := wide2_iff.1 hw
    simp [getnum, ha, hb]

theorem getnum_false {s r : Str} {n : Nat} (h : getnum false s = some (n, r)) :
    ∃ w, (Wide 1 w n ∨ Wide 2 w n) ∧ s = w ++ r := by
  unfold getnum at h
  split at h
  · rename_i a b s
    split at h
    · rename_i ha
      split at h
      · rename_i hb
        cases h
        exact ⟨[a, b], .inr (wide2_iff.2 ⟨a, b, rfl, ha, hb, rfl⟩), rfl⟩
      · simp only [Bool.false_eq_true, if_false, Option.some.injEq, Prod.mk.injEq] at h
        obtain ⟨rfl, rfl⟩ := h
        exact ⟨[a], .inl (wide1_iff.2 ⟨a, rfl, ha, rfl⟩), rfl⟩
    · cases h
  · rename_i a
    split at h
    · rename_i ha
      cases h
      exact ⟨[a], .inl (wide1_iff.2 ⟨a, rfl, by simpa using ha, rfl⟩), rfl⟩
    · cases h
  · cases h

theorem getnum_hour {w r : Str} {n : Nat} (hw : Wide 2 w n ∨ (Wide 1 w n ∧ NoDigit r)) :
    getnum false (w ++ r) = some (n, r) := by
  rcases hw with hw | ⟨hw, hr⟩
  · obtain ⟨a, b, rfl, ha, hb, rfl⟩ := wide2_iff.1 hw
    simp [getnum, ha, hb]
  · obtain ⟨a, rfl, ha, rfl⟩ := wide1_iff.1 hw
    cases r with
    | nil => simp [getnum, ha]
    | cons c r => simp [getnum, ha, hr c rfl]

/-! ## Fractions -/

theorem nanos_take {a b : Str} (h : a.length = 9) : nanos (a ++ b) = digitsVal a := by
  unfold nanos
  rw [List.take_left' h]
  simp [h]

theorem digitsVal_append (a b : Str) : digitsVal (a ++ b) = digitsVal a * 10 ^ b.length + digitsVal b := by
  obtain ⟨r, rfl⟩ : ∃ r, b = r.reverse := ⟨b.reverse, by simp⟩
  induction r with
  | nil => simp [digitsVal]
  | cons c r ih =>
    rw [List.reverse_cons, ← List.append_assoc, digitsVal_snoc, digitsVal_snoc, ih]
    simp only [List.length_append, List.length_cons, List.length_nil, Nat.pow_succ]
    rw [Nat.mul_add]
    have : 10 * (digitsVal a * 10 ^ r.reverse.length) = digitsVal a * (10 ^ r.reverse.length * 10) := by
      rw [Nat.mul_comm 10, Nat.mul_assoc]
    omega

theorem digitsVal_lt {s : Str} (h : ∀ c ∈ s, isDigit c = true) : digitsVal s < 10 ^ s.length := by
  obtain ⟨r, rfl⟩ : ∃ r, s = r.reverse := ⟨s.reverse, by simp⟩
  induction r with
  | nil => simp [digitsVal]
  | cons c r ih =>
    rw [List.reverse_cons] at h ⊢
    rw [digitsVal_snoc]
    have h1 := ih fun c hc => h c (List.mem_append_left _ hc)
    have h2 := digitVal_lt (h c (by simp))
    simp only [List.length_append, List.length_cons, List.length_nil, Nat.zero_add, Nat.pow_succ]
    omega

theorem nanos_eq {s : Str} (h : ∀ c ∈ s, isDigit c = true) : nanos s = digitsVal s * 10 ^ 9 / 10 ^ s.length := by
  by_cases hl : s.length ≤ 9
  · unfold nanos
    rw [List.take_of_length_le hl]
    have : 10 ^ 9 = 10 ^ (9 - s.length) * 10 ^ s.length := by rw [← Nat.pow_add]; congr 1; omega
    rw [this, ← Nat.mul_assoc, Nat.mul_div_cancel _ (Nat.pow_pos (by decide))]
  · have hs : s = s.take 9 ++ s.drop 9 := (List.take_append_drop 9 s).symm
    have h9 : (s.take 9).length = 9 := by rw [List.length_take]; omega
    have hb := digitsVal_lt (s := s.drop 9) fun c hc => h c (List.mem_of_mem_drop hc)
    rw [show nanos s = digitsVal (s.take 9) by rw [hs, nanos_take h9]; simp]
    rw [show digitsVal s = digitsVal (s.take 9) * 10 ^ (s.drop 9).length + digitsVal (s.drop 9) by
      rw [← digitsVal_append, ← hs]]
    have hp : 10 ^ s.length = 10 ^ (s.drop 9).length * 10 ^ 9 := by
      rw [← Nat.pow_add]; congr 1; rw [List.length_drop]; omega
    rw [hp, Nat.mul_div_mul_right _ _ (Nat.pow_pos (by decide)), Nat.mul_comm, Nat.mul_add_div (Nat.pow_pos (by decide)),
      Nat.div_eq_of_lt hb, Nat.add_zero]

theorem isPoint_iff {c : Char} : isPoint c = true ↔ c = '.' ∨ c = ',' := by simp [isPoint]

theorem takeFrac_some {s r : Str} {k : Nat} (h : takeFrac s = (some k, r)) :
    ∃ u, Fraction u k ∧ s = u ++ r := by
  unfold takeFrac at h
  split at h
  · rename_i p d t
    split at h
    · rename_i hp
      simp only [Bool.and_eq_true] at hp
      simp only [Prod.mk.injEq, Option.some.injEq] at h
      obtain ⟨rfl, rfl⟩ := h
      refine ⟨p :: (d :: t).takeWhile isDigit, ?_, ?_⟩
      · rw [nanos_eq fun c hc => List.all_eq_true.1 List.all_takeWhile c hc]
        refine .some (isPoint_iff.1 hp.1) ?_ (digits_iff.2 ⟨fun c hc => List.all_eq_true.1 List.all_takeWhile c hc, rfl⟩)
        rw [List.takeWhile_cons_of_pos hp.2]; simp
      · rw [List.cons_append, List.takeWhile_append_dropWhile]
    · cases h
  · cases h

theorem takeFrac_none {s r : Str} (h : takeFrac s = (none, r)) : r = s := by
  unfold takeFrac at h
  split at h
  · split at h
    · cases h
    · cases h; rfl
  · cases h; rfl

theorem takeFrac_fraction {u r : Str} {k : Nat} (h : Fraction u k) (hu : u ≠ []) (hr : NoDigit r) :
    takeFrac (u ++ r) = (some k, r) := by
  cases h with
  | none => exact absurd rfl hu
  | @some c s n hc hs hd =>
    obtain ⟨h1, h2⟩ := digits_iff.1 hd
    cases s with
    | nil => exact absurd rfl hs
    | cons d t =>
      have hd' := h1 d (by simp)
      have h3 : (d :: t ++ r).takeWhile isDigit = d :: t := by
        rw [List.takeWhile_append_of_pos h1]
        cases r with
        | nil => simp
        | cons x r => simp [hr x rfl]
      have h4 : (d :: t ++ r).dropWhile isDigit = r := by
        rw [List.dropWhile_append_of_pos h1]
        cases r with
        | nil => simp
        | cons x r => simp [hr x rfl]
      rw [List.cons_append] at h3 h4
      simp only [List.cons_append, takeFrac, isPoint_iff.2 hc, hd', Bool.and_self, if_true, h3, h4]
      rw [nanos_eq h1, h2]

theorem takeFrac_noPoint {r : Str} (hr : NoPoint r) : takeFrac r = (none, r) := by
  unfold takeFrac
  split
  · rename_i p d t
    rw [hr p rfl]; simp
  · rfl

/-! ## Zones -/

theorem takeZone_some {s r : Str} {o : Int} (h : takeZone s = some (o, r)) : ∃ z, Zone z o ∧ s = z ++ r := by
  unfold takeZone at h
  split at h
  · cases h; exact ⟨_, .utc, rfl⟩
  · rename_i g a b c d s hg
    split at h
    · rename_i h1 _ m _ hh hm
      obtain ⟨w, hw, e⟩ := getnum_true.1 hh
      obtain ⟨w', hw', e'⟩ := getnum_true.1 hm
      have e1 : w = [a, b] := by
        obtain ⟨x, y, rfl, _⟩ := wide2_iff.1 hw
        simp at e; simp [e]
      have e2 : w' = [c, d] := by
        obtain ⟨x, y, rfl, _⟩ := wide2_iff.1 hw'
        simp at e'; simp [e']
      subst e1 e2
      split at h
      · cases h
      · rename_i hr
        split at h
        · rename_i hg; subst hg
          cases h
          refine ⟨'+' :: [a, b] ++ ':' :: [c, d], ?_, rfl⟩
          have := Zone.east hw hw' (by omega) (by omega)
          rwa [show (3600 * (h1 : Int) + 60 * m) = (((60 * h1 + m) * 60 : Nat) : Int) by omega] at this
        · split at h
          · rename_i hg; subst hg
            cases h
            refine ⟨'-' :: [a, b] ++ ':' :: [c, d], ?_, rfl⟩
            have := Zone.west hw hw' (by omega) (by omega)
            rwa [show (3600 * (h1 : Int) + 60 * m) = (((60 * h1 + m) * 60 : Nat) : Int) by omega] at this
          · cases h
    · cases h
  · cases h

theorem takeZone_zone {z r : Str} {o : Int} (h : Zone z o) : takeZone (z ++ r) = some (o, r) := by
  cases h with
  | utc => rfl
  | @east a b h m ha hb hh hm =>
    have h1 := getnum_true.2 ⟨a, ha, (List.append_nil a).symm⟩
    have h2 := getnum_true.2 ⟨b, hb, (List.append_nil b).symm⟩
    obtain ⟨a1, a2, rfl, _⟩ := wide2_iff.1 ha
    obtain ⟨b1, b2, rfl, _⟩ := wide2_iff.1 hb
    have h3 : ¬ (24 < h ∨ 60 < m) := by omega
    simp [takeZone, h1, h2, h3]
    omega
  | @west a b h m ha hb hh hm =>
    have h1 := getnum_true.2 ⟨a, ha, (List.append_nil a).symm⟩
    have h2 := getnum_true.2 ⟨b, hb, (List.append_nil b).symm⟩
    obtain ⟨a1, a2, rfl, _⟩ := wide2_iff.1 ha
    obtain ⟨b1, b2, rfl, _⟩ := wide2_iff.1 hb
    have h3 : ¬ (24 < h ∨ 60 < m) := by omega
    simp [takeZone, h1, h2, h3]
    omega

/-! ## One element of the layout -/

section Steps
variable {l : List Chunk} {f g : Fields} {r s w : Str} {n : Nat}

theorem step_lit {c : Char} (hc : c ≠ ' ') : parseLoop (.lit c :: l) (c :: r) f = parseLoop l r f := by
  simp [parseLoop, hc]

theorem inv_lit {c : Char} (hc : c ≠ ' ') (h : parseLoop (.lit c :: l) s f = some g) :
    ∃ r, s = c :: r ∧ parseLoop l r f = some g := by
  cases s with
  | nil => simp [parseLoop, hc] at h
  | cons x s =>
    simp only [parseLoop, if_neg hc] at h
    split at h
    · rename_i hx; subst hx; exact ⟨s, rfl, h⟩
    · cases h

theorem cutSpace_replicate (k : Nat) (hr : r.head? ≠ some ' ') : cutSpace (List.replicate k ' ' ++ r) = r := by
  unfold cutSpace
  rw [List.dropWhile_append_of_pos (by simp)]
  cases r with
  | nil => rfl
  | cons x r =>
    have : x ≠ ' ' := fun h => hr (by simp [h])
    simp [this]

theorem cutSpace_spec (s : Str) : ∃ k, s = List.replicate k ' ' ++ cutSpace s := by
  induction s with
  | nil => exact ⟨0, rfl⟩
  | cons x s ih =>
    by_cases h : x = ' '
    · subst h
      obtain ⟨k, hk⟩ := ih
      refine ⟨k + 1, ?_⟩
      have : cutSpace (' ' :: s) = cutSpace s := by simp [cutSpace]
      rw [this, List.replicate_succ, List.cons_append, ← hk]
    · exact ⟨0, by simp [cutSpace, h]⟩

theorem step_space {k : Nat} (hr : r.head? ≠ some ' ') :
    parseLoop (.lit ' ' :: l) (' ' :: List.replicate k ' ' ++ r) f = parseLoop l r f := by
  simp [parseLoop, cutSpace_replicate k hr]

theorem inv_space (h : parseLoop (.lit ' ' :: l) s f = some g) :
    (s = [] ∧ parseLoop l [] f = some g) ∨ ∃ k r, s = ' ' :: List.replicate k ' ' ++ r ∧ parseLoop l r f = some g := by
  cases s with
  | nil => exact .inl ⟨rfl, by simpa [parseLoop] using h⟩
  | cons x s =>
    simp only [parseLoop, if_true] at h
    split at h
    · rename_i hx; subst hx
      obtain ⟨k, hk⟩ := cutSpace_spec s
      exact .inr ⟨k, cutSpace s, by rw [List.cons_append, ← hk], h⟩
    · cases h

theorem step_year (hw : Wide 4 w n) : parseLoop (.year :: l) (w ++ r) f = parseLoop l r { f with year := n } := by
  obtain ⟨a, b, c, d, rfl, ha, hb, hc, hd, rfl⟩ := wide4_iff.1 hw
  simp [parseLoop, ha, hb, hc, hd]

theorem inv_year (h : parseLoop (.year :: l) s f = some g) :
    ∃ w r n, Wide 4 w n ∧ s = w ++ r ∧ parseLoop l r { f with year := n } = some g := by
  match s, h with
  | a :: b :: c :: d :: s, h =>
    simp only [parseLoop] at h
    split at h
    · rename_i hd
      simp only [Bool.and_eq_true] at hd
      exact ⟨[a, b, c, d], s, _, wide4_iff.2 ⟨a, b, c, d, rfl, hd.1.1.1, hd.1.1.2, hd.1.2, hd.2, rfl⟩, rfl, h⟩
    · cases h
  | [], h => simp [parseLoop] at h
  | [_], h => simp [parseLoop] at h
  | [_, _], h => simp [parseLoop] at h
  | [_, _, _], h => simp [parseLoop] at h

theorem step_month (hw : Wide 2 w n) (h1 : 1 ≤ n) (h2 : n ≤ 12) :
    parseLoop (.month :: l) (w ++ r) f = parseLoop l r { f with month := n } := by
  simp only [parseLoop, getnum_true.2 ⟨w, hw, rfl⟩]
  rw [if_neg (by omega)]

theorem inv_month (h : parseLoop (.month :: l) s f = some g) :
    ∃ w r n, Wide 2 w n ∧ 1 ≤ n ∧ n ≤ 12 ∧ s = w ++ r ∧ parseLoop l r { f with month := n } = some g := by
  simp only [parseLoop] at h
  split at h
  · rename_i n r hn
    obtain ⟨w, hw, rfl⟩ := getnum_true.1 hn
    split at h
    · cases h
    · exact ⟨w, r, n, hw, by omega, by omega, rfl, h⟩
  · cases h

theorem step_day (hw : Wide 2 w n) : parseLoop (.day :: l) (w ++ r) f = parseLoop l r { f with day := n } := by
  simp only [parseLoop, getnum_true.2 ⟨w, hw, rfl⟩]

theorem inv_day (h : parseLoop (.day :: l) s f = some g) :
    ∃ w r n, Wide 2 w n ∧ s = w ++ r ∧ parseLoop l r { f with day := n } = some g := by
  simp only [parseLoop] at h
  split at h
  · rename_i n r hn
    obtain ⟨w, hw, rfl⟩ := getnum_true.1 hn
    exact ⟨w, r, n, hw, rfl, h⟩
  · cases h

theorem step_hour (hw : Wide 2 w n ∨ (Wide 1 w n ∧ NoDigit r)) (h : n < 24) :
    parseLoop (.hour :: l) (w ++ r) f = parseLoop l r { f with hour := n } := by
  simp only [parseLoop, getnum_hour hw]
  rw [if_neg (by omega)]

theorem inv_hour (h : parseLoop (.hour :: l) s f = some g) :
    ∃ w r n, (Wide 1 w n ∨ Wide 2 w n) ∧ n < 24 ∧ s = w ++ r ∧ parseLoop l r { f with hour := n } = some g := by
  simp only [parseLoop] at h
  split at h
  · rename_i n r hn
    obtain ⟨w, hw, rfl⟩ := getnum_false hn
    split at h
    · cases h
    · exact ⟨w, r, n, hw, by omega, rfl, h⟩
  · cases h

theorem step_minute (hw : Wide 2 w n) (h : n < 60) :
    parseLoop (.minute :: l) (w ++ r) f = parseLoop l r { f with minute := n } := by
  simp only [parseLoop, getnum_true.2 ⟨w, hw, rfl⟩]
  rw [if_neg (by omega)]

theorem inv_minute (h : parseLoop (.minute :: l) s f = some g) :
    ∃ w r n, Wide 2 w n ∧ n < 60 ∧ s = w ++ r ∧ parseLoop l r { f with minute := n } = some g := by
  simp only [parseLoop] at h
  split at h
  · rename_i n r hn
    obtain ⟨w, hw, rfl⟩ := getnum_true.1 hn
    split at h
    · cases h
    · exact ⟨w, r, n, hw, by omega, rfl, h⟩
  · cases h

theorem step_second_frac (hw : Wide 2 w n) (h : n < 60) :
    parseLoop (.second :: .frac :: l) (w ++ r) f = parseLoop (.frac :: l) r { f with second := n } := by
  rw [parseLoop]
  simp only [getnum_true.2 ⟨w, hw, rfl⟩, nextStd, if_true]
  rw [if_neg (by omega)]

/-- After the seconds a layout without a fraction reads one as a layout with it does. -/
theorem second_frac (hl : nextStd l ≠ some .frac) (s : Str) :
    parseLoop (.second :: l) s f = parseLoop (.second :: .frac :: l) s f := by
  rw [parseLoop, parseLoop]
  cases getnum true s with
  | none => rfl
  | some p =>
    obtain ⟨n, r⟩ := p
    simp only [hl, if_false, nextStd, if_true]
    split
    · rfl
    · rw [parseLoop]

theorem inv_second_frac (h : parseLoop (.second :: .frac :: l) s f = some g) :
    ∃ w r n, Wide 2 w n ∧ n < 60 ∧ s = w ++ r ∧ parseLoop (.frac :: l) r { f with second := n } = some g := by
  rw [parseLoop] at h
  simp only [nextStd, if_true] at h
  split at h
  · rename_i n r hn
    obtain ⟨w, hw, rfl⟩ := getnum_true.1 hn
    split at h
    · cases h
    · exact ⟨w, r, n, hw, by omega, rfl, h⟩
  · cases h

theorem step_frac (hw : Fraction w n) (hf : f.nano = 0) (hr : NoDigit r) (hr' : NoPoint r) :
    parseLoop (.frac :: l) (w ++ r) f = parseLoop l r { f with nano := n } := by
  rw [parseLoop]
  by_cases h : w = []
  · subst h
    cases hw
    simp only [List.nil_append, takeFrac_noPoint hr']
    rw [← hf]
  · simp only [takeFrac_fraction hw h hr]

theorem inv_frac (hf : f.nano = 0) (h : parseLoop (.frac :: l) s f = some g) :
    ∃ w r n, Fraction w n ∧ s = w ++ r ∧ parseLoop l r { f with nano := n } = some g := by
  rw [parseLoop] at h
  split at h
  · rename_i k r hk
    obtain ⟨u, hu, rfl⟩ := takeFrac_some hk
    exact ⟨u, r, k, hu, rfl, h⟩
  · rename_i r hk
    rw [takeFrac_none hk] at h
    exact ⟨[], s, 0, .none, rfl, by rw [← hf]; exact h⟩

theorem step_zone {o : Int} (hz : Zone w o) : parseLoop (.zone :: l) (w ++ r) f = parseLoop l r { f with off := o } := by
  simp only [parseLoop, takeZone_zone hz]

theorem inv_zone (h : parseLoop (.zone :: l) s f = some g) :
    ∃ w r o, Zone w o ∧ s = w ++ r ∧ parseLoop l r { f with off := o } = some g := by
  simp only [parseLoop] at h
  split at h
  · rename_i o r ho
    obtain ⟨z, hz, rfl⟩ := takeZone_some ho
    exact ⟨z, r, o, hz, rfl, h⟩
  · cases h

end Steps

/-! ## The default layouts -/

/-- the clock, the fraction and the zone -/
def clockTail : List Chunk := [.hour, .lit ':', .minute, .lit ':', .second, .frac, .zone]

theorem noDigit_zone {z r : Str} {o : Int} (h : Zone z o) : NoDigit (z ++ r) ∧ NoPoint (z ++ r) := by
  cases h <;> constructor <;> intro c hc <;> simp at hc <;> subst hc <;> decide

theorem clock_sound {s : Str} {f g : Fields} (hf : f.nano = 0) (h : parseLoop clockTail s f = some g) :
    ∃ c fr z hr mi se nano off, s = c ++ fr ++ z ∧ ClockPart c (3600 * hr + 60 * mi + se) ∧ Fraction fr nano ∧ Zone z off ∧
      g = { f with hour := hr, minute := mi, second := se, nano := nano, off := off } := by
  obtain ⟨a, s1, hr, ha, hh, rfl, q1⟩ := inv_hour h
  obtain ⟨s2, rfl, q2⟩ := inv_lit (by decide) q1
  obtain ⟨b, s3, mi, hb, hm, rfl, q3⟩ := inv_minute q2
  obtain ⟨s4, rfl, q4⟩ := inv_lit (by decide) q3
  obtain ⟨c, s5, se, hc, hs, rfl, q5⟩ := inv_second_frac q4
  obtain ⟨fr, s6, nano, hfr, rfl, q6⟩ := inv_frac (f := { f with hour := hr, minute := mi, second := se }) hf q5
  obtain ⟨z, s7, off, hz, rfl, q7⟩ := inv_zone q6
  cases s7 with
  | cons x s7 => simp [parseLoop] at q7
  | nil =>
    simp only [parseLoop, Option.some.injEq] at q7
    exact ⟨a ++ ':' :: b ++ ':' :: c, fr, z, hr, mi, se, nano, off, by simp, .mk ha hb hc hh hm hs, hfr, hz, q7.symm⟩

theorem clock_complete {c fr z : Str} {sec nano : Nat} {off : Int} (hc : ClockPart c sec) (hfr : Fraction fr nano) (hz : Zone z off)
    {f : Fields} (hf : f.nano = 0) : ∃ hr mi se, sec = 3600 * hr + 60 * mi + se ∧
      parseLoop clockTail (c ++ fr ++ z) f = some { f with hour := hr, minute := mi, second := se, nano := nano, off := off } := by
  cases hc with
  | @mk a b c hr mi se ha hb hc hh hm hs =>
    refine ⟨hr, mi, se, rfl, ?_⟩
    have hz' := noDigit_zone (r := []) hz
    rw [List.append_nil] at hz'
    rw [show a ++ ':' :: b ++ ':' :: c ++ fr ++ z = a ++ (':' :: (b ++ (':' :: (c ++ (fr ++ z))))) by simp]
    unfold clockTail
    have ha' : Wide 2 a hr ∨ (Wide 1 a hr ∧ NoDigit (':' :: (b ++ (':' :: (c ++ (fr ++ z)))))) := by
      rcases ha with ha | ha
      · refine .inr ⟨ha, fun x hx => ?_⟩
        simp at hx; subst hx; decide
      · exact .inl ha
    rw [step_hour ha' hh, step_lit (by decide), step_minute hb hm, step_lit (by decide), step_second_frac hc hs,
      step_frac (f := { f with hour := hr, minute := mi, second := se }) hfr hf hz'.1 hz'.2]
    have := step_zone (l := []) (r := []) (f := { f with hour := hr, minute := mi, second := se, nano := nano }) hz
    rw [List.append_nil] at this
    rw [this]
    simp [parseLoop]

theorem clock_head {c r : Str} {sec : Nat} (hc : ClockPart c sec) : (c ++ r).head? ≠ some ' ' := by
  cases hc with
  | @mk a b c hr mi se ha hb hc hh hm hs =>
    have : ∃ x a', a = x :: a' ∧ isDigit x = true := by
      rcases ha with ha | ha
      · obtain ⟨x, rfl, hx, _⟩ := wide1_iff.1 ha; exact ⟨x, _, rfl, hx⟩
      · obtain ⟨x, y, rfl, hx, _⟩ := wide2_iff.1 ha; exact ⟨x, _, rfl, hx⟩
    obtain ⟨x, a', rfl, hx⟩ := this
    intro h
    simp at h; subst h
    revert hx; decide

theorem finish_iff {f : Fields} {t : Time} (h1 : 1 ≤ f.month) (h2 : f.month ≤ 12) : finish f = some t ↔
    ∃ day, (⟨f.year, f.month, f.day⟩ : Date).Real ∧ DayIs day ⟨f.year, f.month, f.day⟩ ∧
      t = ⟨(day * 86400 + (3600 * f.hour + 60 * f.minute + f.second : Nat) - f.off) * 1000000000 + f.nano, f.off⟩ := by
  have hl := daysIn_eq (y := f.year) h1 h2
  have hreal : (⟨f.year, f.month, f.day⟩ : Date).Real ↔ ¬ (f.day < 1 ∨ daysIn (isLeap f.year) f.month < f.day) := by
    simp only [Date.Real]
    rw [hl]
    omega
  unfold finish
  split
  · rename_i h
    simp only [reduceCtorEq, false_iff, not_exists, not_and]
    intro day hr
    exact absurd h (hreal.1 hr)
  · rename_i h
    have hr := hreal.2 h
    constructor
    · intro e
      refine ⟨_, hr, dayIs_iff.2 ⟨hr, rfl⟩, ?_⟩
      cases e
      congr 2
      dsimp only
      omega
    · rintro ⟨day, _, hd, rfl⟩
      have := (dayIs_iff.1 hd).2
      dsimp only at this
      congr 2
      congr 1
      omega

/-- the texts of one form of date -/
inductive NamesBy (D : Str → Date → Prop) : Str → Time → Prop
  | mk {d c f z : Str} {date : Date} {day off : Int} {sec nano : Nat}
      (hd : D d date) (hr : date.Real) (hday : DayIs day date)
      (hc : ClockPart c sec) (hf : Fraction f nano) (hz : Zone z off) :
      NamesBy D (d ++ c ++ f ++ z) ⟨(day * 86400 + sec - off) * 1000000000 + nano, off⟩

inductive IsoDate : Str → Date → Prop
  | mk {a b c : Str} {y m d : Nat} (ha : Wide 4 a y) (hb : Wide 2 b m) (hc : Wide 2 c d) :
      IsoDate (a ++ '-' :: b ++ '-' :: c ++ ['T']) ⟨y, m, d⟩

inductive SpacedDate : Str → Date → Prop
  | mk {a b c : Str} {y m d k : Nat} (ha : Wide 4 a y) (hb : Wide 2 b m) (hc : Wide 2 c d) :
      SpacedDate (a ++ '-' :: b ++ '-' :: c ++ ' ' :: List.replicate k ' ') ⟨y, m, d⟩

inductive DottedDate : Str → Date → Prop
  | mk {a b c : Str} {y m d k : Nat} (ha : Wide 4 a y) (hb : Wide 2 b m) (hc : Wide 2 c d) :
      DottedDate (c ++ '.' :: b ++ '.' :: a ++ ' ' :: List.replicate k ' ') ⟨y, m, d⟩

theorem names_iff {s : Str} {t : Time} : Names s t ↔ NamesBy IsoDate s t ∨ NamesBy SpacedDate s t ∨ NamesBy DottedDate s t := by
  constructor
  · rintro ⟨hd, hr, hday, hc, hf, hz⟩
    cases hd with
    | iso ha hb hc' => exact .inl (.mk (.mk ha hb hc') hr hday hc hf hz)
    | spaced ha hb hc' => exact .inr (.inl (.mk (.mk ha hb hc') hr hday hc hf hz))
    | dotted ha hb hc' => exact .inr (.inr (.mk (.mk ha hb hc') hr hday hc hf hz))
  · rintro (⟨hd, hr, hday, hc, hf, hz⟩ | ⟨hd, hr, hday, hc, hf, hz⟩ | ⟨hd, hr, hday, hc, hf, hz⟩)
    · cases hd with
      | mk ha hb hc' => exact .mk (.iso ha hb hc') hr hday hc hf hz
    · cases hd with
      | mk ha hb hc' => exact .mk (.spaced ha hb hc') hr hday hc hf hz
    · cases hd with
      | mk ha hb hc' => exact .mk (.dotted ha hb hc') hr hday hc hf hz

/-- from a reading of the date to a reading of the whole -/
theorem parse_by {L : List Chunk} {D : Str → Date → Prop}
    (hsound : ∀ s g, parseLoop (L ++ clockTail) s {} = some g → ∃ d r y m k, D d ⟨y, m, k⟩ ∧ 1 ≤ m ∧ m ≤ 12 ∧ s = d ++ r ∧
      parseLoop clockTail r { year := y, month := m, day := k } = some g)
    (hcomplete : ∀ d y m k r, D d ⟨y, m, k⟩ → 1 ≤ m → m ≤ 12 → r.head? ≠ some ' ' →
      parseLoop (L ++ clockTail) (d ++ r) {} = parseLoop clockTail r { year := y, month := m, day := k })
    {s : Str} {t : Time} : parse (L ++ clockTail) s = some t ↔ NamesBy D s t := by
  unfold parse
  constructor
  · intro h
    obtain ⟨g, hg, hfin⟩ := Option.bind_eq_some_iff.1 h
    obtain ⟨d, r, y, m, k, hD, h1, h2, rfl, hr⟩ := hsound s g hg
    obtain ⟨c, fr, z, hr', mi, se, nano, off, rfl, hc, hfr, hz, rfl⟩ := clock_sound rfl hr
    obtain ⟨day, hreal, hday, rfl⟩ := (finish_iff h1 h2).1 hfin
    have := NamesBy.mk hD hreal hday hc hfr hz
    rwa [show d ++ (c ++ fr ++ z) = d ++ c ++ fr ++ z by simp]
  · intro h
    cases h with
    | @mk d c fr z date day off sec nano hd hr hday hc hf hz =>
      obtain ⟨y, m, k⟩ := date
      have h1 : 1 ≤ m := hr.1
      have h2 : m ≤ 12 := hr.2.1
      obtain ⟨hr', mi, se, rfl, hcl⟩ := clock_complete hc hf hz (f := { year := y, month := m, day := k }) rfl
      rw [show d ++ c ++ fr ++ z = d ++ (c ++ fr ++ z) by simp,
        hcomplete d y m k _ hd h1 h2 (by rw [List.append_assoc]; exact clock_head hc), hcl]
      exact (finish_iff h1 h2).2 ⟨day, hr, hday, rfl⟩

theorem parse_iso {s : Str} {t : Time} :
    parse [.year, .lit '-', .month, .lit '-', .day, .lit 'T', .hour, .lit ':', .minute, .lit ':', .second, .frac, .zone] s = some t ↔
      NamesBy IsoDate s t := by
  refine parse_by (L := [.year, .lit '-', .month, .lit '-', .day, .lit 'T']) ?_ ?_
  · intro s g h
    obtain ⟨a, s1, y, ha, rfl, q1⟩ := inv_year h
    obtain ⟨s2, rfl, q2⟩ := inv_lit (by decide) q1
    obtain ⟨b, s3, m, hb, h1, h2, rfl, q3⟩ := inv_month q2
    obtain ⟨s4, rfl, q4⟩ := inv_lit (by decide) q3
    obtain ⟨c, s5, d, hc, rfl, q5⟩ := inv_day q4
    obtain ⟨s6, rfl, q6⟩ := inv_lit (by decide) q5
    exact ⟨_, s6, y, m, d, .mk ha hb hc, h1, h2, by simp, q6⟩
  · intro d y m k r hD h1 h2 _
    generalize hdate : (⟨y, m, k⟩ : Date) = date at hD
    cases hD with
    | @mk a b c y m d ha hb hc =>
      cases hdate
      rw [show a ++ '-' :: b ++ '-' :: c ++ ['T'] ++ r = a ++ ('-' :: (b ++ ('-' :: (c ++ ('T' :: r))))) by simp]
      simp only [List.cons_append, List.nil_append]
      rw [step_year ha, step_lit (by decide), step_month hb h1 h2, step_lit (by decide), step_day hc, step_lit (by decide)]

theorem parse_spaced {s : Str} {t : Time} :
    parse [.year, .lit '-', .month, .lit '-', .day, .lit ' ', .hour, .lit ':', .minute, .lit ':', .second, .frac, .zone] s = some t ↔
      NamesBy SpacedDate s t := by
  refine parse_by (L := [.year, .lit '-', .month, .lit '-', .day, .lit ' ']) ?_ ?_
  · intro s g h
    obtain ⟨a, s1, y, ha, rfl, q1⟩ := inv_year h
    obtain ⟨s2, rfl, q2⟩ := inv_lit (by decide) q1
    obtain ⟨b, s3, m, hb, h1, h2, rfl, q3⟩ := inv_month q2
    obtain ⟨s4, rfl, q4⟩ := inv_lit (by decide) q3
    obtain ⟨c, s5, d, hc, rfl, q5⟩ := inv_day q4
    rcases inv_space q5 with ⟨rfl, q6⟩ | ⟨k, s6, rfl, q6⟩
    · simp [clockTail, parseLoop, getnum] at q6
    exact ⟨_, s6, y, m, d, .mk (k := k) ha hb hc, h1, h2, by simp, q6⟩
  · intro d y m k r hD h1 h2 hr
    generalize hdate : (⟨y, m, k⟩ : Date) = date at hD
    cases hD with
    | @mk a b c y m d k ha hb hc =>
      cases hdate
      rw [show a ++ '-' :: b ++ '-' :: c ++ ' ' :: List.replicate k ' ' ++ r =
        a ++ ('-' :: (b ++ ('-' :: (c ++ (' ' :: List.replicate k ' ' ++ r))))) by simp]
      simp only [List.cons_append, List.nil_append]
      rw [step_year ha, step_lit (by decide), step_month hb h1 h2, step_lit (by decide), step_day hc, ← List.cons_append, step_space hr]

theorem parse_dotted {s : Str} {t : Time} :
    parse [.day, .lit '.', .month, .lit '.', .year, .lit ' ', .hour, .lit ':', .minute, .lit ':', .second, .frac, .zone] s = some t ↔
      NamesBy DottedDate s t := by
  refine parse_by (L := [.day, .lit '.', .month, .lit '.', .year, .lit ' ']) ?_ ?_
  · intro s g h
    obtain ⟨c, s5, d, hc, rfl, q1⟩ := inv_day h
    obtain ⟨s2, rfl, q2⟩ := inv_lit (by decide) q1
    obtain ⟨b, s3, m, hb, h1, h2, rfl, q3⟩ := inv_month q2
    obtain ⟨s4, rfl, q4⟩ := inv_lit (by decide) q3
    obtain ⟨a, s1, y, ha, rfl, q5⟩ := inv_year q4
    rcases inv_space q5 with ⟨rfl, q6⟩ | ⟨k, s6, rfl, q6⟩
    · simp [clockTail, parseLoop, getnum] at q6
    exact ⟨_, s6, y, m, d, .mk (k := k) ha hb hc, h1, h2, by simp, q6⟩
  · intro d y m k r hD h1 h2 hr
    generalize hdate : (⟨y, m, k⟩ : Date) = date at hD
    cases hD with
    | @mk a b c y m d k ha hb hc =>
      cases hdate
      rw [show c ++ '.' :: b ++ '.' :: a ++ ' ' :: List.replicate k ' ' ++ r =
        c ++ ('.' :: (b ++ ('.' :: (a ++ (' ' :: List.replicate k ' ' ++ r))))) by simp]
      simp only [List.cons_append, List.nil_append]
      rw [step_day hc, step_lit (by decide), step_month hb h1 h2, step_lit (by decide), step_year ha, ← List.cons_append, step_space hr]

end TimeText
end VJ
