import Verif.Model.GoText
import Verif.Spec.GoText
import Verif.Proof.GoInt

/-!
# Interpreted strings: the reader against the specification
-/

namespace VJ

theorem unquoteFrom_drop : ∀ (n : Nat) (s : Str), unquoteFrom n s = unquoteFrom 0 (s.drop n)
  | 0, s => by simp
  | n + 1, [] => by simp [unquoteFrom]
  | n + 1, c :: r => by simp only [unquoteFrom, List.drop_succ_cons]; exact unquoteFrom_drop n r

theorem escNum_some {b len max : Nat} {s : Str} {c : Char} :
    escNum b len max s = some c ↔ ∃ e t n, s = e ++ t ∧ e.length = len ∧ DigitsOf b e n ∧ n ≤ max ∧ n.isValidChar ∧ c = Char.ofNat n := by
  unfold escNum
  constructor
  · intro h
    split at h
    · rename_i hl
      split at h
      · rename_i n hn
        split at h
        · rename_i hm
          cases h
          exact ⟨s.take len, s.drop len, n, (List.take_append_drop _ _).symm, hl, baseNat_iff.1 hn, hm.1, hm.2, rfl⟩
        · cases h
      · cases h
    · cases h
  · rintro ⟨e, t, n, rfl, rfl, hd, hm, hv, rfl⟩
    simp only [List.take_left, if_true, baseNat_iff.2 hd, hm, hv, and_self]

theorem escNum_none_of {b len max : Nat} {s : Str} (h : ∀ c, escNum b len max s ≠ some c) : escNum b len max s = none := by
  cases hh : escNum b len max s with
  | none => rfl
  | some c => exact absurd hh (h c)

theorem digits_char {b : Nat} {s : Str} {n : Nat} (h : DigitsOf b s n) : ∀ c ∈ s, ∃ d, HexDigit c d ∧ d < b := by
  induction h with
  | one h hb => intro c hc; simp at hc; subst hc; exact ⟨_, h, hb⟩
  | more _ h hb ih =>
    intro c hc
    simp only [List.mem_append, List.mem_singleton] at hc
    rcases hc with hc | rfl
    · exact ih c hc
    · exact ⟨_, h, hb⟩

theorem simpleEscape_digit {c : Char} {d : Nat} (h : HexDigit c d) (hd : d < 8) : simpleEscape c = none := by
  cases h with
  | digit h =>
    have : ∀ d < 10, simpleEscape (Char.ofNat (48 + d)) = none := by decide
    exact this _ h
  | lower h => omega
  | upper h => omega

theorem digit_not {c : Char} {d : Nat} (h : HexDigit c d) (hd : d < 8) : c ≠ 'x' ∧ c ≠ 'u' ∧ c ≠ 'U' := by
  cases h with
  | digit h =>
    have : ∀ d < 10, Char.ofNat (48 + d) ≠ 'x' ∧ Char.ofNat (48 + d) ≠ 'u' ∧ Char.ofNat (48 + d) ≠ 'U' := by decide
    exact this _ h
  | lower h => omega
  | upper h => omega

theorem hexDigit_ne {c : Char} {d : Nat} (h : HexDigit c d) : c ≠ '"' ∧ c ≠ '\\' := by
  cases h with
  | digit h =>
    have : ∀ d < 10, Char.ofNat (48 + d) ≠ '"' ∧ Char.ofNat (48 + d) ≠ '\\' := by decide
    exact this _ h
  | lower h =>
    have : ∀ d < 6, Char.ofNat (97 + d) ≠ '"' ∧ Char.ofNat (97 + d) ≠ '\\' := by decide
    exact this _ h
  | upper h =>
    have : ∀ d < 6, Char.ofNat (65 + d) ≠ '"' ∧ Char.ofNat (65 + d) ≠ '\\' := by decide
    exact this _ h

theorem valid_small {n : Nat} (h : n < 128) : n.isValidChar := Or.inl (by omega)

theorem valid_max {n : Nat} (h : n.isValidChar) : n ≤ 0x10ffff := by
  rcases h with h | h <;> omega

theorem simpleEscape_spec {e c : Char} (h : simpleEscape e = some c) : Escape [e] c := by
  unfold simpleEscape at h
  split at h <;> cases h
  · exact .bell
  · exact .backspace
  · exact .formFeed
  · exact .newline
  · exact .return
  · exact .tab
  · exact .verticalTab
  · exact .backslash
  · exact .quote

theorem escapeAt_iff {s : Str} {c : Char} {n : Nat} :
    escapeAt s = some (c, n) ↔ ∃ e t, s = e ++ t ∧ e.length = n ∧ Escape e c := by
  constructor
  · intro h
    cases s with
    | nil => simp [escapeAt] at h
    | cons x r =>
      simp only [escapeAt] at h
      split at h
      · rename_i d hd
        cases h
        exact ⟨[x], r, rfl, rfl, simpleEscape_spec hd⟩
      · have num : ∀ {b len max k : Nat} {s : Str}, (escNum b len max s).map (·, k) = some (c, n) →
            k = n ∧ ∃ e t m, s = e ++ t ∧ e.length = len ∧ DigitsOf b e m ∧ m ≤ max ∧ m.isValidChar ∧ c = Char.ofNat m := by
          intro b len max k s h
          obtain ⟨d, hd, hp⟩ := Option.map_eq_some_iff.1 h
          cases hp
          exact ⟨rfl, escNum_some.1 hd⟩
        split at h
        · rename_i hx
          obtain ⟨rfl, e, t, m, rfl, hl, hd, hm, hv, rfl⟩ := num h
          exact ⟨x :: e, t, rfl, by simp [hl], hx ▸ .hex hd hl (by omega)⟩
        · split at h
          · rename_i hx
            obtain ⟨rfl, e, t, m, rfl, hl, hd, hm, hv, rfl⟩ := num h
            exact ⟨x :: e, t, rfl, by simp [hl], hx ▸ .short hd hl hv⟩
          · split at h
            · rename_i hx
              obtain ⟨rfl, e, t, m, rfl, hl, hd, hm, hv, rfl⟩ := num h
              exact ⟨x :: e, t, rfl, by simp [hl], hx ▸ .long hd hl hv⟩
            · obtain ⟨rfl, e, t, m, hs, hl, hd, hm, hv, rfl⟩ := num h
              exact ⟨e, t, hs, hl, .octal hd hl (by omega)⟩
  · rintro ⟨e, t, rfl, rfl, h⟩
    cases h with
    | @octal _ n hs hl hn =>
      match e, hl, hs with
      | [a, b, d], _, hs =>
        obtain ⟨x, hx, hx8⟩ := digits_char hs a (by simp)
        have h1 := simpleEscape_digit hx hx8
        obtain ⟨h2, h3, h4⟩ := digit_not hx hx8
        simp only [List.cons_append, List.nil_append, escapeAt, h1, h2, h3, h4, if_false]
        have : escNum 8 3 0x7f (a :: b :: d :: t) = some (Char.ofNat n) :=
          escNum_some.2 ⟨[a, b, d], t, _, rfl, rfl, hs, by omega, valid_small hn, rfl⟩
        rw [this]
        rfl
    | @hex s n hs hl hn =>
      have : escNum 16 2 0x7f (s ++ t) = some (Char.ofNat n) :=
        escNum_some.2 ⟨_, t, _, rfl, hl, hs, by omega, valid_small hn, rfl⟩
      simp [escapeAt, simpleEscape, this, hl]
    | @short s n hs hl hn =>
      have : escNum 16 4 0x10ffff (s ++ t) = some (Char.ofNat n) :=
        escNum_some.2 ⟨_, t, _, rfl, hl, hs, valid_max hn, hn, rfl⟩
      simp [escapeAt, simpleEscape, this, hl]
    | @long s n hs hl hn =>
      have : escNum 16 8 0x10ffff (s ++ t) = some (Char.ofNat n) :=
        escNum_some.2 ⟨_, t, _, rfl, hl, hs, valid_max hn, hn, rfl⟩
      simp [escapeAt, simpleEscape, this, hl]
    | _ => rfl

theorem escape_ne_nil {e : Str} {c : Char} (h : Escape e c) : e ≠ [] := by
  rintro rfl
  cases h with
  | octal _ hl _ => cases hl

theorem interpreted_of_unquote : ∀ (k : Nat) (s : Str), s.length ≤ k → ∀ {v : Str}, unquoteFrom 0 s = some v → Interpreted s v
  | _, [], _, v, h => by simp [unquoteFrom] at h; subst h; exact .nil
  | 0, c :: r, hk, _, _ => by simp at hk
  | k + 1, c :: r, hk, v, h => by
    simp only [unquoteFrom] at h
    simp only [List.length_cons] at hk
    split at h
    · rename_i hc
      subst hc
      split at h
      · rename_i d n hd
        obtain ⟨w, hw, rfl⟩ := Option.map_eq_some_iff.1 h
        rw [unquoteFrom_drop] at hw
        obtain ⟨e, t, rfl, rfl, he⟩ := escapeAt_iff.1 hd
        rw [List.drop_left] at hw
        simp only [List.length_append] at hk
        exact .escape he (interpreted_of_unquote k t (by omega) hw)
      · cases h
    · rename_i hc
      split at h
      · cases h
      · rename_i hq
        obtain ⟨w, hw, rfl⟩ := Option.map_eq_some_iff.1 h
        exact .plain (fun x => hq (.inr x)) hc (fun x => hq (.inl x)) (interpreted_of_unquote k r (by omega) hw)

theorem unquote_iff {s v : Str} : unquote s = some v ↔ Interpreted s v := by
  refine ⟨interpreted_of_unquote _ s (Nat.le_refl _), fun h => ?_⟩
  unfold unquote
  induction h with
  | nil => rfl
  | plain h1 h2 h3 _ ih => simp [unquoteFrom, h1, h2, h3, ih]
  | @escape e src v c he _ ih =>
    simp only [unquoteFrom, if_true]
    rw [escapeAt_iff.2 ⟨e, src, rfl, rfl, he⟩]
    simp only
    rw [unquoteFrom_drop, List.drop_left, ih]
    rfl

theorem interpreted_unique {s v w : Str} (h : Interpreted s v) (h' : Interpreted s w) : v = w := by
  have h1 := unquote_iff.2 h
  rw [unquote_iff.2 h'] at h1
  cases h1; rfl

theorem escapeQuotes_eq : ∀ (s : Str), escapeQuotes s = quotesEscaped s
  | [] => rfl
  | c :: s => by
    have := escapeQuotes_eq s
    simp only [escapeQuotes, quotesEscaped, List.flatMap_cons] at this ⊢
    split <;> simp [this]

theorem literalText_iff {s v : Str} : literalText s = some v ↔ ReadAsSource s v := by
  unfold literalText ReadAsSource
  rw [escapeQuotes_eq]
  split
  · rename_i h
    constructor
    · intro h'; cases h'
    · rintro ⟨h1, h2, _⟩
      rcases h with h | h
      · exact absurd h h1
      · exact absurd h h2
  · rename_i h
    rw [unquote_iff]
    exact ⟨fun h' => ⟨fun x => h (.inl x), fun x => h (.inr x), h'⟩, fun h' => h'.2.2⟩

theorem readAsSource_unique {s v w : Str} (h : ReadAsSource s v) (h' : ReadAsSource s w) : v = w :=
  interpreted_unique h.2.2 h'.2.2

/-- a text without backslashes and line breaks is read as itself -/
theorem readAsSource_plain {s : Str} (h : QuotesPlainly s) : ReadAsSource s s := by
  refine ⟨h.2.2.1, h.2.2.2, ?_⟩
  have : ∀ s : Str, '\\' ∉ s → '\n' ∉ s → Interpreted (quotesEscaped s) s := by
    intro s
    induction s with
    | nil => intro _ _; exact .nil
    | cons c s ih =>
      intro h1 h2
      simp only [List.mem_cons, not_or] at h1 h2
      have := ih h1.2 h2.2
      simp only [quotesEscaped, List.flatMap_cons]
      split
      · rename_i hc; subst hc; exact .escape (e := ['"']) .quote this
      · rename_i hc; exact .plain hc (fun h => h1.1 h.symm) (fun h => h2.1 h.symm) this
  exact this s h.1 h.2.1

end VJ
