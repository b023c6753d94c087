import Verif.Proof.TimeWrite
import Verif.Spec.TimeLayout
import Verif.Proof.Num
import Verif.Spec.JsonText

/-! # Layouts -/

namespace VJ
namespace TimeText

theorem isDigit_range {c : Char} : isDigit c = true ↔ '0' ≤ c ∧ c ≤ '9' := by
  unfold isDigit
  simp only [Bool.and_eq_true, decide_eq_true_eq]
  rw [Char.le_def, Char.le_def, UInt32.le_iff_toNat_le, UInt32.le_iff_toNat_le]
  exact Iff.rfl

theorem follows_of_apart {a b : Chunk} (h : ¬ Swallows a b) : follows a b = true := by
  have hnum : ∀ c ∈ [Chunk.year, .month, .day, .hour, .minute, .second], a = .frac → b = c → False := by
    rintro c hc rfl rfl; exact h (.fractionNumber hc)
  cases a <;> cases b <;> simp only [follows, Chunk.digit, Bool.not_false, Bool.not_true]
  case frac.year => exact (hnum _ (by simp) rfl rfl).elim
  case frac.month => exact (hnum _ (by simp) rfl rfl).elim
  case frac.day => exact (hnum _ (by simp) rfl rfl).elim
  case frac.hour => exact (hnum _ (by simp) rfl rfl).elim
  case frac.minute => exact (hnum _ (by simp) rfl rfl).elim
  case frac.second => exact (hnum _ (by simp) rfl rfl).elim
  case lit.lit c d =>
    by_cases hc : c = ' ' ∧ d = ' '
    · obtain ⟨rfl, rfl⟩ := hc; exact absurd .spaces h
    · cases h1 : c == ' ' with
      | false => rfl
      | true =>
        cases h2 : d == ' ' with
        | false => rfl
        | true => exact absurd ⟨by simpa using h1, by simpa using h2⟩ hc
  case lit.frac c =>
    simp only [bne_iff_ne, ne_eq]
    rintro rfl; exact h .spaceFraction
  case second.lit c =>
    cases hp : isPoint c with
    | false => rfl
    | true => exact absurd (.secondPoint (isPoint_iff.1 hp)) h
  case frac.lit c =>
    cases hp : isPoint c with
    | true => exact absurd (.fractionPoint (isPoint_iff.1 hp)) h
    | false =>
      cases hd : isDigit c with
      | true => exact absurd (.fractionDigit (isDigit_range.1 hd)) h
      | false => rfl
  case frac.frac => exact absurd .fractionTwice h

theorem chained_of_apart : ∀ {l : List Chunk}, Apart l → chained l = true
  | [], _ => rfl
  | [_], _ => rfl
  | a :: b :: l, h => by
    simp only [chained, Bool.and_eq_true]
    exact ⟨follows_of_apart (h 0 a b rfl rfl), chained_of_apart fun i x y hx hy => h (i + 1) x y hx hy⟩

theorem foldl_set (t : Time) (d : Date) : ∀ (l : List Chunk) (f : Fields),
    l.foldl (Chunk.set t d) f =
      { year := if .year ∈ l then d.year else f.year
        month := if .month ∈ l then d.month else f.month
        day := if .day ∈ l then d.day else f.day
        hour := if .hour ∈ l then (localClock t / 3600).toNat else f.hour
        minute := if .minute ∈ l then (localClock t % 3600 / 60).toNat else f.minute
        second := if .second ∈ l then (localClock t % 60).toNat else f.second
        nano := if .frac ∈ l then localNano t else f.nano
        off := if .zone ∈ l then t.off.tdiv 60 * 60 else f.off }
  | [], f => by simp
  | a :: l, f => by
    rw [List.foldl_cons, foldl_set t d l]
    cases a <;> simp [Chunk.set]

theorem localDay_eq (t : Time) : localDay t = Time.wall t / 86400000000000 := rfl

theorem onDate_unique {t : Time} {d d' : Date} (h : OnDate t d) (h' : OnDate t d') : d = d' := by
  have h1 := dayIs_real h
  have h2 := dayIs_real h'
  exact dayNumber_inj h1.1 h2.1 (by omega)

/-- **Writing and reading again by one layout** gives what the layout shows. -/
theorem parse_format {l : List Chunk} (ha : Apart l) {t : Time} (hr : Room l t) {t' : Time} :
    parse l (format l t) = some t' ↔ Shows l t t' := by
  obtain ⟨d, hd⟩ := exists_dayIs (localDay t)
  have hreal := (dayIs_real hd).1
  have hfit : Fits l t d := ⟨fun h => hr.1 h d hd, hr.2⟩
  unfold parse
  rw [loop_format (textOf hd) hreal (chained_of_apart ha) hfit (.inl rfl), foldl_set, Option.bind_some]
  have hm : 1 ≤ (if Chunk.month ∈ l then d.month else 1) ∧ (if Chunk.month ∈ l then d.month else 1) ≤ 12 := by
    have := hreal.1
    have := hreal.2.1
    split <;> omega
  have hcl : localClock t = Time.wall t / 1000000000 % 86400 := by unfold localClock Time.wall; omega
  have hb := localClock_bounds t
  have e1 : ((if Chunk.hour ∈ l then (localClock t / 3600).toNat else 0 : Nat) : Int) =
      if Chunk.hour ∈ l then Time.wall t / 3600000000000 % 24 else 0 := by split <;> omega
  have e2 : ((if Chunk.minute ∈ l then (localClock t % 3600 / 60).toNat else 0 : Nat) : Int) =
      if Chunk.minute ∈ l then Time.wall t / 60000000000 % 60 else 0 := by split <;> omega
  have e3 : ((if Chunk.second ∈ l then (localClock t % 60).toNat else 0 : Nat) : Int) =
      if Chunk.second ∈ l then Time.wall t / 1000000000 % 60 else 0 := by split <;> omega
  have e4 : ((if Chunk.frac ∈ l then localNano t else 0 : Nat) : Int) =
      if Chunk.frac ∈ l then Time.wall t % 1000000000 else 0 := by
    have : (localNano t : Int) = Time.wall t % 1000000000 := by unfold localNano Time.wall; omega
    split <;> omega
  rw [finish_iff hm.1 hm.2]
  constructor
  · rintro ⟨day, _, hday, rfl⟩
    have := Shows.mk (l := l) (t := t) hd hday e1 e2 e3 e4 rfl
    have heq : ∀ {a b o : Int} {n : Int}, a = b → (⟨a * 1000000000 + n, o⟩ : Time) = ⟨b * 1000000000 + n, o⟩ := by
      rintro a b o n rfl; rfl
    refine (heq ?_) ▸ this
    dsimp only
    omega
  · intro h
    cases h with
    | @mk d' day hd' hday hour minute second nano off hh hmi hs hn ho =>
      have := onDate_unique hd hd'
      subst this
      refine ⟨day, (dayIs_real hday).1, hday, ?_⟩
      subst hh hmi hs hn ho
      simp only [Time.mk.injEq, and_true]
      rw [← e1, ← e2, ← e3, ← e4]
      omega

theorem shows_exists (l : List Chunk) (t : Time) : ∃ t', Shows l t t' := by
  obtain ⟨d, hd⟩ := exists_dayIs (Time.wall t / 86400000000000)
  obtain ⟨h1, h2, h3, h4⟩ := (dayIs_real hd).1
  have hreal : (⟨if .year ∈ l then d.year else 0, if .month ∈ l then d.month else 1, if .day ∈ l then d.day else 1⟩ : Date).Real := by
    refine ⟨?_, ?_, ?_, ?_⟩
    · dsimp only; split <;> omega
    · dsimp only; split <;> omega
    · dsimp only; split <;> omega
    · dsimp only
      have hle : ∀ y, monthLength y d.month ≤ monthLength 0 d.month := by
        intro y
        unfold monthLength
        split
        · exact Nat.le_refl _
        · split
          · rw [if_pos (show LeapYear 0 by decide)]; split <;> omega
          · exact Nat.le_refl _
      have h31 : monthLength d.year d.month ≤ 31 := by
        unfold monthLength
        split
        · omega
        · split
          · split <;> omega
          · omega
      have hpos : ∀ y m, 1 ≤ monthLength y m := by
        intro y m
        unfold monthLength
        split
        · omega
        · split
          · split <;> omega
          · omega
      by_cases hday : Chunk.day ∈ l
      · rw [if_pos hday]
        by_cases hmo : Chunk.month ∈ l
        · rw [if_pos hmo]
          split
          · exact h4
          · exact Nat.le_trans h4 (hle _)
        · rw [if_neg hmo]
          have : ∀ y, monthLength y 1 = 31 := fun y => by simp [monthLength]
          rw [this]; omega
      · rw [if_neg hday]; exact hpos _ _
  exact ⟨_, .mk hd (dayIs_iff.2 ⟨hreal, rfl⟩) rfl rfl rfl rfl rfl⟩

/-- A layout with all elements shows the whole time, up to the seconds of its offset. -/
theorem shows_all {l : List Chunk} (hl : ∀ c, (∀ x, c ≠ .lit x) → c ∈ l) {t t' : Time} :
    Shows l t t' ↔ t' = ⟨t.ns + (t.off - t.off.tdiv 60 * 60) * 1000000000, t.off.tdiv 60 * 60⟩ := by
  have key : ∀ {t''}, Shows l t t'' → t'' = ⟨t.ns + (t.off - t.off.tdiv 60 * 60) * 1000000000, t.off.tdiv 60 * 60⟩ := by
    rintro _ ⟨hd, hday, hh, hm, hs, hn, ho⟩
    rw [if_pos (hl _ (by simp)), if_pos (hl _ (by simp)), if_pos (hl _ (by simp))] at hday
    rw [if_pos (hl _ (by simp))] at hh hm hs hn ho
    have h1 := dayIs_real hd
    have h2 := dayIs_real hday
    dsimp only at h2
    have : Time.wall t = t.ns + t.off * 1000000000 := rfl
    subst hh hm hs hn ho
    simp only [Time.mk.injEq, and_true]
    omega
  constructor
  · exact key
  · rintro rfl
    obtain ⟨t'', h⟩ := shows_exists l t
    rwa [key h] at h

/-! ## Plain text -/

theorem plain_of_digit {c : Char} (h : isDigit c = true) : 32 ≤ c.toNat ∧ c ≠ '"' ∧ c ≠ '\\' := by
  refine ⟨?_, ?_, ?_⟩
  · unfold isDigit at h; simp at h; omega
  · rintro rfl; revert h; decide
  · rintro rfl; revert h; decide

theorem plain_appendInt (x : Int) (w : Nat) : PlainText (appendInt x w) := by
  intro c hc
  unfold appendInt at hc
  rcases List.mem_append.1 hc with hc | hc
  · split at hc
    · rw [List.mem_singleton.1 hc]; decide
    · exact (List.not_mem_nil hc).elim
  · split at hc
    · exact plain_of_digit ((digitsOf_spec _ _).2.1 c hc)
    · exact plain_of_digit ((natStr_spec _).2.2 c hc)

theorem plain_text (t : Time) (b : Chunk) (hb : ∀ c, b = .lit c → 32 ≤ c.toNat ∧ c ≠ '"' ∧ c ≠ '\\') :
    PlainText (Chunk.text t b) := by
  cases b with
  | lit c => intro x hx; rw [List.mem_singleton.1 hx]; exact hb c rfl
  | frac =>
    intro c hc
    simp only [Chunk.text, appendNano] at hc
    split at hc
    · exact (List.not_mem_nil hc).elim
    · rcases List.mem_cons.1 hc with rfl | hc
      · decide
      · rw [List.mem_reverse] at hc
        exact plain_of_digit ((digitsOf_spec _ _).2.1 c (by simpa using (List.dropWhile_sublist _).mem hc))
  | zone =>
    intro c hc
    simp only [Chunk.text, appendZone] at hc
    split at hc
    · rw [List.mem_singleton.1 hc]; decide
    · rcases List.mem_cons.1 hc with h | hc
      · subst h; split <;> decide
      · rcases List.mem_append.1 hc with hc | hc
        · exact plain_appendInt _ _ c hc
        · rcases List.mem_cons.1 hc with rfl | hc
          · decide
          · exact plain_appendInt _ _ c hc
  | _ => exact plain_appendInt _ _

theorem plain_format (l : List Chunk) (hl : ∀ c, .lit c ∈ l → 32 ≤ c.toNat ∧ c ≠ '"' ∧ c ≠ '\\') (t : Time) :
    PlainText (format l t) := by
  intro c hc
  obtain ⟨b, hb, hc⟩ := List.mem_flatMap.1 hc
  exact plain_text t b (fun x hx => hl x (hx ▸ hb)) c hc

end TimeText
end VJ
