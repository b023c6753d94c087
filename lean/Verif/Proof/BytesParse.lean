import Verif.Proof.Utf8
import Verif.Proof.Parser

/-! # The parser on bytes does what the parser on characters does -/

namespace VJ

theorem ne_ascii {c d : Char} (h : ¬ c.toNat < 128) (hd : d.toNat < 128) : c ≠ d := fun e => h (e ▸ hd)

theorem bch_high {b : UInt8} (h : 128 ≤ b.toNat) : ¬ (bch b).toNat < 128 := by rw [bch_toNat]; omega

theorem isWs_high {c : Char} (h : ¬ c.toNat < 128) : isWs c = false := by
  simp [isWs, ne_ascii h (d := ' ') (by decide), ne_ascii h (d := '\n') (by decide), ne_ascii h (d := '\t') (by decide), ne_ascii h (d := '\r') (by decide)]

theorem isNumChar_high {c : Char} (h : ¬ c.toNat < 128) : isNumChar c = false := by
  have : isDigit c = false := by
    cases hd : isDigit c with
    | false => rfl
    | true => simp [isDigit] at hd; omega
  simp [isNumChar, this, ne_ascii h (d := '.') (by decide), ne_ascii h (d := '-') (by decide), ne_ascii h (d := 'e') (by decide),
    ne_ascii h (d := 'E') (by decide), ne_ascii h (d := '+') (by decide)]

theorem hexVal_high {c : Char} (h : ¬ c.toNat < 128) : hexVal c = none := by
  simp only [hexVal]
  rw [if_neg (by omega), if_neg (by omega), if_neg (by omega)]

theorem hex4_ascii {a b c d : Char} {x : Nat} (h : hex4 a b c d = some x) : a.toNat < 128 ∧ b.toNat < 128 ∧ c.toNat < 128 ∧ d.toNat < 128 := by
  refine Classical.byContradiction fun hn => ?_
  have : hexVal a = none ∨ hexVal b = none ∨ hexVal c = none ∨ hexVal d = none := by
    by_cases ha : a.toNat < 128
    · by_cases hb : b.toNat < 128
      · by_cases hc : c.toNat < 128
        · exact .inr (.inr (.inr (hexVal_high fun hd => hn ⟨ha, hb, hc, hd⟩)))
        · exact .inr (.inr (.inl (hexVal_high hc)))
      · exact .inr (.inl (hexVal_high hb))
    · exact .inl (hexVal_high ha)
  unfold hex4 at h
  rcases this with e | e | e | e
  · simp [e] at h
  · simp [e] at h
  · simp [e] at h
  · simp [e] at h

/-- the bytes of a character that is not ASCII -/
theorem high_cons {c : Char} (h : ¬ c.toNat < 128) :
    ∃ b bs, String.utf8EncodeChar c = b :: bs ∧ 128 ≤ b.toNat ∧ ∀ x ∈ bs, 128 ≤ x.toNat := by
  obtain ⟨h1, h2⟩ := encode_high h
  cases he : String.utf8EncodeChar c with
  | nil => exact absurd he h1
  | cons b bs =>
    rw [he] at h2
    exact ⟨b, bs, rfl, h2 b (by simp), fun x hx => h2 x (by simp [hx])⟩

/-- an ASCII byte at the beginning is an ASCII character at the beginning -/
theorem utf8_first {s : Str} {b : UInt8} {t : Bytes} (h : utf8 s = b :: t) (hb : (bch b).toNat < 128) :
    ∃ s', s = bch b :: s' ∧ utf8 s' = t := by
  cases s with
  | nil => cases h
  | cons c s =>
    by_cases hc : c.toNat < 128
    · rw [utf8_ascii hc] at h
      cases h
      exact ⟨s, by rw [bch_cbyte hc], rfl⟩
    · obtain ⟨b', bs, he, hb', -⟩ := high_cons hc
      rw [utf8_cons, he] at h
      cases h
      exact absurd hb (bch_high hb')

theorem bSkipWs_utf8 : ∀ s, bSkipWs (utf8 s) = utf8 (skipWs s)
  | [] => rfl
  | c :: s => by
    by_cases hc : c.toNat < 128
    · rw [utf8_ascii hc, bSkipWs, bch_cbyte hc, skipWs]
      split
      · exact bSkipWs_utf8 s
      · rw [utf8_ascii hc]
    · obtain ⟨b, bs, he, hb, -⟩ := high_cons hc
      rw [skipWs, isWs_high hc, utf8_cons, he, List.cons_append, bSkipWs, isWs_high (bch_high hb)]
      simp [utf8_cons, he]

/-- both parts in UTF-8 -/
def utf8P (p : Str × Str) : Bytes × Bytes := (utf8 p.1, utf8 p.2)

theorem bRawString_high : ∀ {bs : Bytes}, (∀ b ∈ bs, 128 ≤ b.toNat) → bs ≠ [] → ∀ (e : Bool) (t : Bytes),
    bRawString e (bs ++ t) = (bRawString false t).map fun p => (bs ++ p.1, p.2)
  | [], _, h, _, _ => absurd rfl h
  | [b], hb, _, e, t => by
    have h := bch_high (hb b (by simp))
    rw [List.cons_append, bRawString, if_neg (fun h' => ne_ascii h (d := '"') (by decide) h'.1)]
    simp only [ne_ascii h (d := '\\') (by decide), decide_false, Bool.false_and, List.nil_append]
    cases bRawString false t <;> rfl
  | b :: b' :: bs, hb, _, e, t => by
    have h := bch_high (hb b (by simp))
    rw [List.cons_append, bRawString, if_neg (fun h' => ne_ascii h (d := '"') (by decide) h'.1)]
    simp only [ne_ascii h (d := '\\') (by decide), decide_false, Bool.false_and]
    rw [bRawString_high (fun x hx => hb x (by simp [List.mem_cons.1 hx])) (by simp)]
    cases bRawString false t <;> rfl

theorem bRawString_utf8 : ∀ (s : Str) (e : Bool), bRawString e (utf8 s) = (rawString e s).map utf8P
  | [], _ => rfl
  | c :: s, e => by
    by_cases hc : c.toNat < 128
    · rw [utf8_ascii hc, bRawString, bch_cbyte hc, rawString]
      split
      · rfl
      · rw [bRawString_utf8 s]
        cases rawString (decide (c = '\\') && !e) s with
        | none => rfl
        | some p => simp only [Option.map_some, utf8P, utf8_ascii hc]
    · rw [utf8_cons, bRawString_high (encode_high hc).2 (encode_high hc).1, bRawString_utf8 s, rawString,
        if_neg (fun h' => ne_ascii hc (d := '"') (by decide) h'.1)]
      simp only [ne_ascii hc (d := '\\') (by decide), decide_false, Bool.false_and]
      cases rawString false s with
      | none => rfl
      | some p => simp only [Option.map_some, utf8P, utf8_cons]

/-! ## Escapes -/

theorem unescape_other (fuel : Nat) {c : Char} (hc : c ≠ '\\') (cs : Str) : unescape (fuel + 1) (c :: cs) = c :: unescape fuel cs := by
  rw [unescape.eq_def]; simp only [ne_eq, hc, not_false_eq_true, if_true]

theorem bUnescape_other (fuel : Nat) {b : UInt8} (hb : bch b ≠ '\\') (bs : Bytes) : bUnescape (fuel + 1) (b :: bs) = b :: bUnescape fuel bs := by
  rw [bUnescape.eq_def]; simp only [ne_eq, hb, not_false_eq_true, if_true]

theorem unescape_simple (fuel : Nat) {e : Char} (he : e ≠ 'u') (rest : Str) : unescape (fuel + 1) ('\\' :: e :: rest) =
    match simpleEsc e with
    | some d => d :: unescape fuel rest
    | none => '\\' :: e :: unescape fuel rest := by
  rw [unescape.eq_def]; simp only [ne_eq, not_true_eq_false, if_false, he]; rfl

theorem bUnescape_simple (fuel : Nat) {b e : UInt8} (hb : bch b = '\\') (he : bch e ≠ 'u') (rest : Bytes) : bUnescape (fuel + 1) (b :: e :: rest) =
    match simpleEsc (bch e) with
    | some d => cbyte d :: bUnescape fuel rest
    | none => b :: e :: bUnescape fuel rest := by
  rw [bUnescape.eq_def]; simp only [ne_eq, hb, not_true_eq_false, if_false, he]; rfl

/-- four hexadecimal digits and the rest -/
def esc4 : Str → Option (Nat × Str)
  | h1 :: h2 :: h3 :: h4 :: tail => (hex4 h1 h2 h3 h4).map (·, tail)
  | _ => none

def bEsc4 : Bytes → Option (Nat × Bytes)
  | h1 :: h2 :: h3 :: h4 :: tail => (bHex4 h1 h2 h3 h4).map (·, tail)
  | _ => none

def lowHalf : Str → Option (Nat × Str)
  | b :: u :: rest => if b = '\\' ∧ u = 'u' then esc4 rest else none
  | _ => none

theorem unescape_u (fuel : Nat) (rest : Str) : unescape (fuel + 1) ('\\' :: 'u' :: rest) =
    match esc4 rest with
    | none => '\\' :: 'u' :: unescape fuel rest
    | some (x, tail) =>
      if isSurrogate x then
        match lowHalf tail with
        | some (y, tail') => decodeRune x y :: unescape fuel tail'
        | none => '\\' :: 'u' :: (rest.take 4 ++ unescape fuel tail)
      else Char.ofNat x :: unescape fuel tail := by
  rw [unescape.eq_def]
  simp only [ne_eq, not_true_eq_false, if_false, if_true]
  match rest with
  | [] | [_] | [_, _] | [_, _, _] => rfl
  | h1 :: h2 :: h3 :: h4 :: tail =>
    simp only [esc4]
    cases hex4 h1 h2 h3 h4 with
    | none => rfl
    | some x =>
      simp only [Option.map_some]
      split
      · split
        · rename_i k1 k2 k3 k4 tail'
          simp only [lowHalf, esc4, and_self, if_true]
          cases hex4 k1 k2 k3 k4 <;> rfl
        · rename_i hn
          have : lowHalf tail = none := by
            match tail with
            | [] | [_] => rfl
            | b :: u :: rest =>
              simp only [lowHalf]
              split
              · rename_i hbu
                obtain ⟨rfl, rfl⟩ := hbu
                match rest with
                | [] | [_] | [_, _] | [_, _, _] => rfl
                | k1 :: k2 :: k3 :: k4 :: tail' => exact absurd rfl (hn k1 k2 k3 k4 tail')
              · rfl
          simp [this]
      · rfl

theorem bLowHalf_eq (t : Bytes) : bLowHalf t = match t with
    | b :: u :: rest => if bch b = '\\' ∧ bch u = 'u' then bEsc4 rest else none
    | _ => none := by
  match t with
  | [] | [_] => rfl
  | [b, u] | [b, u, _] | [b, u, _, _] | [b, u, _, _, _] => simp [bLowHalf, bEsc4]
  | b :: u :: k1 :: k2 :: k3 :: k4 :: tail =>
    simp only [bLowHalf, bEsc4]
    split
    · cases bHex4 k1 k2 k3 k4 <;> rfl
    · rfl

theorem bUnescape_u (fuel : Nat) {b e : UInt8} (hb : bch b = '\\') (he : bch e = 'u') (rest : Bytes) : bUnescape (fuel + 1) (b :: e :: rest) =
    match bEsc4 rest with
    | none => b :: e :: bUnescape fuel rest
    | some (x, tail) =>
      if isSurrogate x then
        match bLowHalf tail with
        | some (y, tail') => runeBytes (decodeRune x y) ++ bUnescape fuel tail'
        | none => b :: e :: (rest.take 4 ++ bUnescape fuel tail)
      else runeBytes (Char.ofNat x) ++ bUnescape fuel tail := by
  rw [bUnescape.eq_def]
  simp only [hb, he, ne_eq, not_true_eq_false, if_false, if_true]
  match rest with
  | [] | [_] | [_, _] | [_, _, _] => rfl
  | h1 :: h2 :: h3 :: h4 :: tail =>
    simp only [bEsc4]
    cases bHex4 h1 h2 h3 h4 with
    | none => rfl
    | some x => rfl

theorem bEsc4_utf8 (s : Str) : bEsc4 (utf8 s) = (esc4 s).map fun p => (p.1, utf8 p.2) := by
  cases he : esc4 s with
  | some p =>
    match s, he with
    | h1 :: h2 :: h3 :: h4 :: tail, he =>
      simp only [esc4, Option.map_eq_some_iff] at he
      obtain ⟨x, hx, rfl⟩ := he
      obtain ⟨a1, a2, a3, a4⟩ := hex4_ascii hx
      rw [utf8_ascii a1, utf8_ascii a2, utf8_ascii a3, utf8_ascii a4]
      simp only [bEsc4, bHex4, bch_cbyte a1, bch_cbyte a2, bch_cbyte a3, bch_cbyte a4, hx]
      rfl
  | none =>
    cases hb : bEsc4 (utf8 s) with
    | none => rfl
    | some p =>
      exfalso
      cases hu : utf8 s with
      | nil => rw [hu] at hb; cases hb
      | cons b1 t1 => cases t1 with
        | nil => rw [hu] at hb; cases hb
        | cons b2 t2 => cases t2 with
          | nil => rw [hu] at hb; cases hb
          | cons b3 t3 => cases t3 with
            | nil => rw [hu] at hb; cases hb
            | cons b4 t4 =>
              rw [hu] at hb
              simp only [bEsc4, Option.map_eq_some_iff] at hb
              obtain ⟨x, hx, rfl⟩ := hb
              obtain ⟨a1, a2, a3, a4⟩ := hex4_ascii hx
              obtain ⟨s1, rfl, h1⟩ := utf8_first hu a1
              obtain ⟨s2, rfl, h2⟩ := utf8_first h1 a2
              obtain ⟨s3, rfl, h3⟩ := utf8_first h2 a3
              obtain ⟨s4, rfl, h4⟩ := utf8_first h3 a4
              simp only [esc4, Option.map_eq_none_iff] at he
              rw [bHex4, he] at hx
              cases hx

theorem bLowHalf_utf8 (s : Str) : bLowHalf (utf8 s) = (lowHalf s).map fun p => (p.1, utf8 p.2) := by
  rw [bLowHalf_eq]
  match s with
  | [] => rfl
  | [c] =>
    by_cases hc : c.toNat < 128
    · rw [utf8_ascii hc]; rfl
    · obtain ⟨b, bs, he, hb, -⟩ := high_cons hc
      rw [utf8_cons, he]
      cases bs with
      | nil => rfl
      | cons b' bs =>
        simp only [List.cons_append, ne_ascii (bch_high hb) (d := '\\') (by decide), false_and, if_false]
        rfl
  | c :: u :: rest =>
    by_cases hc : c.toNat < 128
    · by_cases hu : u.toNat < 128
      · rw [utf8_ascii hc, utf8_ascii hu]
        simp only [lowHalf, bch_cbyte hc, bch_cbyte hu]
        split
        · exact bEsc4_utf8 rest
        · rfl
      · obtain ⟨b, bs, he, hb, -⟩ := high_cons hu
        rw [utf8_ascii hc, utf8_cons, he]
        simp only [List.cons_append, ne_ascii (bch_high hb) (d := 'u') (by decide), and_false, if_false, lowHalf, ne_ascii hu (d := 'u') (by decide)]
        rfl
    · obtain ⟨b, bs, he, hb, -⟩ := high_cons hc
      have hl : lowHalf (c :: u :: rest) = none := by
        simp only [lowHalf, ne_ascii hc (d := '\\') (by decide), false_and, if_false]
      rw [utf8_cons, he, hl]
      simp only [List.cons_append]
      generalize bs ++ utf8 (u :: rest) = t
      cases t with
      | nil => rfl
      | cons x t =>
        simp only [ne_ascii (bch_high hb) (d := '\\') (by decide), false_and, if_false]
        rfl

theorem esc4_some {s tail : Str} {x : Nat} (h : esc4 s = some (x, tail)) :
    s = s.take 4 ++ tail ∧ (utf8 s).take 4 = utf8 (s.take 4) ∧ tail.length < s.length ∧ (utf8 tail).length < (utf8 s).length := by
  match s, h with
  | h1 :: h2 :: h3 :: h4 :: t, h =>
    simp only [esc4, Option.map_eq_some_iff] at h
    obtain ⟨y, hy, hxt⟩ := h
    cases hxt
    obtain ⟨a1, a2, a3, a4⟩ := hex4_ascii hy
    refine ⟨by simp, ?_, by simp only [List.length_cons]; omega, ?_⟩
    · rw [utf8_ascii a1, utf8_ascii a2, utf8_ascii a3, utf8_ascii a4]
      simp only [List.take_succ_cons, List.take_zero]
      rw [utf8_ascii a1, utf8_ascii a2, utf8_ascii a3, utf8_ascii a4]; rfl
    · rw [utf8_ascii a1, utf8_ascii a2, utf8_ascii a3, utf8_ascii a4]
      simp only [List.length_cons]; omega

theorem lowHalf_some {s tail : Str} {x : Nat} (h : lowHalf s = some (x, tail)) :
    tail.length < s.length ∧ (utf8 tail).length < (utf8 s).length := by
  match s, h with
  | b :: u :: rest, h =>
    simp only [lowHalf] at h
    split at h
    · obtain ⟨-, -, h1, h2⟩ := esc4_some h
      refine ⟨by simp only [List.length_cons]; omega, ?_⟩
      rw [utf8_cons, utf8_cons]; simp only [List.length_append]; omega
    · cases h

theorem bUnescape_high : ∀ {bs : Bytes}, (∀ b ∈ bs, 128 ≤ b.toNat) → ∀ (g : Nat) (t : Bytes), bUnescape (g + bs.length) (bs ++ t) = bs ++ bUnescape g t
  | [], _, _, _ => rfl
  | b :: bs, hb, g, t => by
    have h := bch_high (hb b (by simp))
    rw [List.length_cons, ← Nat.add_assoc, List.cons_append, bUnescape_other _ (ne_ascii h (d := '\\') (by decide)),
      bUnescape_high (fun x hx => hb x (by simp [hx]))]
    rfl

theorem simpleEsc_ascii {e d : Char} (h : simpleEsc e = some d) : d.toNat < 128 := by
  unfold simpleEsc at h
  repeat' split at h
  all_goals first | cases h; decide | cases h

theorem simpleEsc_high {e : Char} (h : ¬ e.toNat < 128) : simpleEsc e = none := by
  simp only [simpleEsc]
  rw [if_neg (ne_ascii h (by decide)), if_neg (ne_ascii h (by decide)), if_neg (ne_ascii h (by decide)), if_neg (ne_ascii h (by decide)),
    if_neg (ne_ascii h (by decide)), if_neg (ne_ascii h (by decide)), if_neg (ne_ascii h (by decide)), if_neg (ne_ascii h (by decide))]

theorem bUnescape_utf8 : ∀ (n : Nat) (s : Str), s.length ≤ n → ∀ f g, s.length < f → (utf8 s).length < g → bUnescape g (utf8 s) = utf8 (unescape f s) := by
  intro n
  induction n with
  | zero =>
    intro s hs f g hf hg
    cases s with
    | nil => cases f <;> cases g <;> rfl
    | cons c s => simp at hs
  | succ n ih =>
    intro s hs f g hf hg
    cases s with
    | nil => cases f <;> cases g <;> rfl
    | cons c s =>
    obtain ⟨f, rfl⟩ : ∃ k, f = k + 1 := ⟨f - 1, by simp at hf; omega⟩
    simp only [List.length_cons] at hs hf
    by_cases hc : c.toNat < 128
    · rw [utf8_ascii hc] at hg ⊢
      obtain ⟨g, rfl⟩ : ∃ k, g = k + 1 := ⟨g - 1, by omega⟩
      simp only [List.length_cons] at hg
      by_cases hbs : c = '\\'
      · subst hbs
        have hbc : bch (cbyte '\\') = '\\' := bch_cbyte (by decide)
        cases s with
        | nil => simp [utf8_nil, bUnescape, unescape, hbc]
        | cons e rest =>
          simp only [List.length_cons] at hs hf
          by_cases he : e.toNat < 128
          · rw [utf8_ascii he] at hg ⊢
            simp only [List.length_cons] at hg
            by_cases heu : e = 'u'
            · subst heu
              rw [bUnescape_u g hbc (bch_cbyte (by decide)), unescape_u, bEsc4_utf8]
              cases h4 : esc4 rest with
              | none =>
                simp only [Option.map_none]
                rw [ih rest (by omega) f g (by omega) (by omega), utf8_ascii (by decide), utf8_ascii (by decide)]
              | some p =>
                obtain ⟨x, tail⟩ := p
                obtain ⟨h1, h2, h3, h5⟩ := esc4_some h4
                simp only [Option.map_some]
                split
                · rw [bLowHalf_utf8]
                  cases hl : lowHalf tail with
                  | none =>
                    simp only [Option.map_none]
                    rw [ih tail (by omega) f g (by omega) (by omega), h2, utf8_ascii (by decide), utf8_ascii (by decide), utf8_append]
                  | some q =>
                    obtain ⟨y, tail'⟩ := q
                    obtain ⟨h6, h7⟩ := lowHalf_some hl
                    simp only [Option.map_some]
                    rw [ih tail' (by omega) f g (by omega) (by omega), utf8_cons, encode_eq]
                · rw [ih tail (by omega) f g (by omega) (by omega), utf8_cons, encode_eq]
            · rw [bUnescape_simple _ hbc (by rw [bch_cbyte he]; exact heu), unescape_simple _ heu, bch_cbyte he,
                ih rest (by omega) f g (by omega) (by omega)]
              cases hse : simpleEsc e with
              | none => simp only; rw [utf8_ascii (by decide), utf8_ascii he]
              | some d => simp only; rw [utf8_ascii (simpleEsc_ascii hse)]
          · obtain ⟨b, bs, hbe, hb, hbs⟩ := high_cons he
            rw [utf8_cons, hbe] at hg ⊢
            simp only [List.cons_append, List.length_cons, List.length_append] at hg ⊢
            rw [bUnescape_simple _ hbc (ne_ascii (bch_high hb) (by decide)), unescape_simple _ (ne_ascii he (by decide)), simpleEsc_high he,
              simpleEsc_high (bch_high hb)]
            simp only
            obtain ⟨g, rfl⟩ : ∃ k, g = k + bs.length := ⟨g - bs.length, by omega⟩
            rw [bUnescape_high hbs, ih rest (by omega) f g (by omega) (by omega), utf8_ascii (by decide), utf8_cons, hbe]
            rfl
      · rw [bUnescape_other _ (by rw [bch_cbyte hc]; exact hbs), unescape_other _ hbs, utf8_ascii hc, ih s (by omega) f g (by omega) (by omega)]
    · rw [utf8_cons, List.length_append] at hg
      obtain ⟨g, rfl⟩ : ∃ k, g = k + (String.utf8EncodeChar c).length := ⟨g - (String.utf8EncodeChar c).length, by omega⟩
      rw [utf8_cons, bUnescape_high (encode_high hc).2, unescape_other _ (ne_ascii hc (d := '\\') (by decide)), utf8_cons,
        ih s (by omega) f g (by omega) (by omega)]

theorem bUnescapeStr_utf8 (s : Str) : bUnescapeStr (utf8 s) = utf8 (unescapeStr s) :=
  bUnescape_utf8 s.length s (by omega) _ _ (by omega) (by omega)

/-! ## Numbers and words -/

theorem bSpanNum_utf8 : ∀ s, bSpanNum (utf8 s) = utf8P (spanNum s)
  | [] => rfl
  | c :: s => by
    by_cases hc : c.toNat < 128
    · rw [utf8_ascii hc, bSpanNum, bch_cbyte hc, spanNum]
      split
      · rw [bSpanNum_utf8 s]; simp only [utf8P, utf8_ascii hc]
      · simp only [utf8P, utf8_ascii hc]; rfl
    · obtain ⟨b, bs, he, hb, -⟩ := high_cons hc
      rw [spanNum, isNumChar_high hc, utf8_cons, he, List.cons_append, bSpanNum, isNumChar_high (bch_high hb)]
      simp [utf8P, utf8_cons, he, utf8_nil]

theorem lowerChar_ascii {c d : Char} (h : lowerChar c = d) (hd : d.toNat < 128) : c.toNat < 128 := by
  unfold lowerChar at h
  split at h
  · omega
  · subst h; exact hd

theorem isInfNan_ascii {a b c : Char} (h : isInfNan a b c = true) : a.toNat < 128 ∧ b.toNat < 128 ∧ c.toNat < 128 := by
  simp only [isInfNan, str, Bool.or_eq_true, beq_iff_eq] at h
  rcases h with h | h
  · have h' : lowerChar a = 'i' ∧ lowerChar b = 'n' ∧ lowerChar c = 'f' := by simpa using h
    exact ⟨lowerChar_ascii h'.1 (by decide), lowerChar_ascii h'.2.1 (by decide), lowerChar_ascii h'.2.2 (by decide)⟩
  · have h' : lowerChar a = 'n' ∧ lowerChar b = 'a' ∧ lowerChar c = 'n' := by simpa using h
    exact ⟨lowerChar_ascii h'.1 (by decide), lowerChar_ascii h'.2.1 (by decide), lowerChar_ascii h'.2.2 (by decide)⟩

/-- three characters that spell `inf` or `nan` -/
def infNan : Str → Option (Str × Str)
  | a :: b :: d :: tail => if isInfNan a b d then some ([a, b, d], tail) else none
  | _ => none

def bInfNan : Bytes → Option (Bytes × Bytes)
  | a :: b :: d :: tail => if isInfNan (bch a) (bch b) (bch d) then some ([a, b, d], tail) else none
  | _ => none

theorem bInfNan_utf8 (s : Str) : bInfNan (utf8 s) = (infNan s).map utf8P := by
  cases he : infNan s with
  | some p =>
    match s, he with
    | h1 :: h2 :: h3 :: tail, he =>
      simp only [infNan] at he
      split at he
      · rename_i hx
        cases he
        obtain ⟨a1, a2, a3⟩ := isInfNan_ascii hx
        rw [utf8_ascii a1, utf8_ascii a2, utf8_ascii a3]
        simp only [bInfNan, bch_cbyte a1, bch_cbyte a2, bch_cbyte a3, hx, if_true, Option.map_some, utf8P]
        rw [utf8_ascii a1, utf8_ascii a2, utf8_ascii a3]
        rfl
      · cases he
  | none =>
    cases hb : bInfNan (utf8 s) with
    | none => rfl
    | some p =>
      exfalso
      cases hu : utf8 s with
      | nil => rw [hu] at hb; cases hb
      | cons b1 t1 => cases t1 with
        | nil => rw [hu] at hb; cases hb
        | cons b2 t2 => cases t2 with
          | nil => rw [hu] at hb; cases hb
          | cons b3 t3 =>
            rw [hu] at hb
            simp only [bInfNan] at hb
            split at hb
            · rename_i hx
              obtain ⟨a1, a2, a3⟩ := isInfNan_ascii hx
              obtain ⟨s1, rfl, h1⟩ := utf8_first hu a1
              obtain ⟨s2, rfl, h2⟩ := utf8_first h1 a2
              obtain ⟨s3, rfl, h3⟩ := utf8_first h2 a3
              simp [infNan, hx] at he
            · cases hb

theorem rawNumber_eq (s : Str) : rawNumber s =
    if (spanNum s).2 = [] then some ((spanNum s).1, [])
    else if (spanNum s).1 = [] ∨ (spanNum s).1 = ['-'] ∨ (spanNum s).1 = ['+'] then
      (infNan (spanNum s).2).map fun p => ((spanNum s).1 ++ p.1, p.2)
    else some (spanNum s) := by
  unfold rawNumber
  rcases spanNum s with ⟨ns, rest⟩
  match rest with
  | [] => simp
  | [c] => simp [infNan]
  | [c, d] => simp [infNan]
  | a :: b :: c :: tail =>
    simp only [infNan]
    split
    · split
      · simp
      · simp
    · simp

theorem bRawNumber_eq (s : Bytes) : bRawNumber s =
    if (bSpanNum s).2 = [] then some ((bSpanNum s).1, [])
    else if (bSpanNum s).1 = [] ∨ (bSpanNum s).1 = [cbyte '-'] ∨ (bSpanNum s).1 = [cbyte '+'] then
      (bInfNan (bSpanNum s).2).map fun p => ((bSpanNum s).1 ++ p.1, p.2)
    else some (bSpanNum s) := by
  unfold bRawNumber
  rcases bSpanNum s with ⟨ns, rest⟩
  match rest with
  | [] => simp
  | [c] => simp [bInfNan]
  | [c, d] => simp [bInfNan]
  | a :: b :: c :: tail =>
    simp only [bInfNan]
    split
    · split
      · simp
      · simp
    · simp

theorem utf8_eq_nil {s : Str} : utf8 s = [] ↔ s = [] := ⟨fun h => utf8_inj h, fun h => by rw [h]; rfl⟩
theorem utf8_eq_one {s : Str} {c : Char} (hc : c.toNat < 128) : utf8 s = [cbyte c] ↔ s = [c] := by
  have : utf8 [c] = [cbyte c] := utf8_ascii hc []
  rw [← this]; exact ⟨utf8_inj, fun h => by rw [h]⟩

theorem bRawNumber_utf8 (s : Str) : bRawNumber (utf8 s) = (rawNumber s).map utf8P := by
  rw [bRawNumber_eq, rawNumber_eq, bSpanNum_utf8]
  simp only [utf8P, utf8_eq_nil, utf8_eq_one (c := '-') (by decide), utf8_eq_one (c := '+') (by decide), bInfNan_utf8]
  split
  · rfl
  · split
    · cases infNan (spanNum s).2 with
      | none => rfl
      | some p => simp only [Option.map_some, utf8P, utf8_append]
    · rfl

theorem bStripPrefix_utf8 : ∀ (p s : Str), (∀ c ∈ p, c.toNat < 128) → bStripPrefix p (utf8 s) = (stripPrefix p s).map utf8
  | [], s, _ => by cases s <;> rfl
  | _ :: _, [], _ => rfl
  | p :: ps, c :: s, h => by
    by_cases hc : c.toNat < 128
    · rw [utf8_ascii hc, bStripPrefix, bch_cbyte hc, stripPrefix]
      split
      · exact bStripPrefix_utf8 ps s fun d hd => h d (by simp [hd])
      · rfl
    · obtain ⟨b, bs, he, hb, -⟩ := high_cons hc
      rw [utf8_cons, he, List.cons_append, bStripPrefix, if_neg (ne_ascii (bch_high hb) (h p (by simp))).symm, stripPrefix,
        if_neg (ne_ascii hc (h p (by simp))).symm]
      rfl

/-- what the parser returns, in UTF-8 -/
def utf8R : Except PErr (JV × Str) → Except PErr (BJV × Bytes)
  | .ok (v, rest) => .ok (v.utf8, utf8 rest)
  | .error e => .error e
def utf8RL : Except PErr (List JV × Str) → Except PErr (List BJV × Bytes)
  | .ok (v, rest) => .ok (JV.utf8L v, utf8 rest)
  | .error e => .error e
def utf8RKV : Except PErr (List (Str × JV) × Str) → Except PErr (List (Bytes × BJV) × Bytes)
  | .ok (v, rest) => .ok (JV.utf8KV v, utf8 rest)
  | .error e => .error e

theorem bParseNull_utf8 (s : Str) : bParseNull (cbyte 'n') (utf8 s) = utf8R (parseNull s) := by
  unfold bParseNull parseNull
  rw [bStripPrefix_utf8 _ _ (by decide)]
  cases stripPrefix (str "ull") s with
  | some rest => rfl
  | none =>
    simp only [Option.map_none]
    match s with
    | [] => rfl
    | [c] =>
      by_cases hc : c.toNat < 128
      · rw [utf8_ascii hc]; rfl
      · obtain ⟨b, bs, he, hb, -⟩ := high_cons hc
        rw [utf8_cons, he]
        cases bs with
        | nil => rfl
        | cons b' bs =>
          simp only [List.cons_append]
          rw [if_neg fun h => bch_high hb (lowerChar_ascii h.1 (by decide))]
          rfl
    | a :: c :: rest =>
      simp only
      by_cases ha : a.toNat < 128
      · by_cases hc : c.toNat < 128
        · rw [utf8_ascii ha, utf8_ascii hc]
          simp only [bch_cbyte ha, bch_cbyte hc]
          split
          · simp only [utf8R, JV.utf8]
            rw [utf8_ascii (by decide), utf8_ascii ha, utf8_ascii hc]
            rfl
          · rfl
        · obtain ⟨b, bs, he, hb, -⟩ := high_cons hc
          rw [utf8_ascii ha, utf8_cons, he]
          simp only [List.cons_append]
          rw [if_neg fun h => bch_high hb (lowerChar_ascii h.2 (by decide)), if_neg fun h => hc (lowerChar_ascii h.2 (by decide))]
          rfl
      · obtain ⟨b, bs, he, hb, -⟩ := high_cons ha
        rw [if_neg fun h => ha (lowerChar_ascii h.1 (by decide)), utf8_cons, he]
        simp only [List.cons_append]
        generalize bs ++ utf8 (c :: rest) = t
        cases t with
        | nil => rfl
        | cons x t =>
          simp only
          rw [if_neg fun h => bch_high hb (lowerChar_ascii h.1 (by decide))]
          rfl

/-! ## The parser -/

/-- the first byte, seen as a character, if it is ASCII -/
theorem utf8_head (s : Str) {d : Char} (hd : d.toNat < 128) : ((utf8 s).head?.map bch = some d ↔ s.head? = some d) := by
  cases s with
  | nil => simp [utf8_nil]
  | cons c s =>
    by_cases hc : c.toNat < 128
    · rw [utf8_ascii hc]; simp [bch_cbyte hc]
    · obtain ⟨b, bs, he, hb, -⟩ := high_cons hc
      rw [utf8_cons, he]
      simp [ne_ascii (bch_high hb) hd, ne_ascii hc hd]

theorem utf8_tail {s : Str} {d : Char} (hd : d.toNat < 128) (h : s.head? = some d) : (utf8 s).tail = utf8 s.tail := by
  cases s with
  | nil => cases h
  | cons c s => cases h; rw [utf8_ascii hd]; rfl

theorem bParse_utf8 : ∀ fuel,
    (∀ d s, bParseValue fuel d (utf8 s) = utf8R (parseValue fuel d s)) ∧
    (∀ d s, bParseElems fuel d (utf8 s) = utf8RL (parseElems fuel d s)) ∧
    (∀ d s, bParseMembers fuel d (utf8 s) = utf8RKV (parseMembers fuel d s)) := by
  intro fuel
  induction fuel with
  | zero => exact ⟨fun _ _ => by simp [bParseValue, parseValue, utf8R], fun _ _ => by simp [bParseElems, parseElems, utf8RL],
      fun _ _ => by simp [bParseMembers, parseMembers, utf8RKV]⟩
  | succ fuel ih =>
    obtain ⟨ihV, ihE, ihM⟩ := ih
    refine ⟨fun d s => ?_, fun d s => ?_, fun d s => ?_⟩
    · cases s with
      | nil => simp [utf8_nil, bParseValue, parseValue, utf8R]
      | cons c s =>
      cases d with
      | zero =>
        by_cases hc : c.toNat < 128
        · rw [utf8_ascii hc]; simp [bParseValue, parseValue, utf8R]
        · obtain ⟨b, bs, he, hb, -⟩ := high_cons hc
          rw [utf8_cons, he, List.cons_append]; simp [bParseValue, parseValue, utf8R]
      | succ d =>
        by_cases hc : c.toNat < 128
        · have hn := bRawNumber_utf8 (c :: s)
          rw [utf8_ascii hc] at hn ⊢
          rw [bParseValue, parseValue]
          simp only [bch_cbyte hc, bSkipWs_utf8, utf8_head _ (d := '}') (by decide), utf8_head _ (d := ']') (by decide), ihE, ihM, bRawString_utf8,
            bStripPrefix_utf8 (str "rue") s (by decide), bStripPrefix_utf8 (str "alse") s (by decide), hn]
          split
          · split
            · rename_i h; simp only [utf8R, utf8_tail (by decide) h]; rfl
            · cases parseMembers fuel d (skipWs s) <;> rfl
          · split
            · split
              · rename_i h; simp only [utf8R, utf8_tail (by decide) h]; rfl
              · cases parseElems fuel d (skipWs s) <;> rfl
            · split
              · cases rawString false s with
                | none => rfl
                | some p => simp only [Option.map_some, utf8P, utf8R, JV.utf8, bUnescapeStr_utf8]
              · split
                · cases stripPrefix (str "rue") s <;> rfl
                · split
                  · cases stripPrefix (str "alse") s <;> rfl
                  · split
                    · rename_i hcn
                      subst hcn
                      exact bParseNull_utf8 s
                    · cases rawNumber (c :: s) <;> rfl
        · have hn := bRawNumber_utf8 (c :: s)
          obtain ⟨b, bs, he, hb, -⟩ := high_cons hc
          rw [utf8_cons, he, List.cons_append] at hn ⊢
          have hb := bch_high hb
          rw [bParseValue, parseValue]
          simp only [if_neg (ne_ascii hc (d := '{') (by decide)), if_neg (ne_ascii hc (d := '[') (by decide)), if_neg (ne_ascii hc (d := '"') (by decide)),
            if_neg (ne_ascii hc (d := 't') (by decide)), if_neg (ne_ascii hc (d := 'f') (by decide)), if_neg (ne_ascii hc (d := 'n') (by decide)),
            if_neg (ne_ascii hb (d := '{') (by decide)), if_neg (ne_ascii hb (d := '[') (by decide)), if_neg (ne_ascii hb (d := '"') (by decide)),
            if_neg (ne_ascii hb (d := 't') (by decide)), if_neg (ne_ascii hb (d := 'f') (by decide)), if_neg (ne_ascii hb (d := 'n') (by decide)), hn]
          cases rawNumber (c :: s) <;> rfl
    · rw [bParseElems, parseElems, bSkipWs_utf8, ihV]
      cases parseValue fuel d (skipWs s) with
      | error e => rfl
      | ok p =>
        obtain ⟨v, rest⟩ := p
        simp only [utf8R, bSkipWs_utf8]
        generalize skipWs rest = t
        cases t with
        | nil => rfl
        | cons c t =>
          by_cases hc : c.toNat < 128
          · rw [utf8_ascii hc]
            simp only [bch_cbyte hc]
            by_cases h1 : c = ','
            · subst h1
              simp only [if_true, ihE]
              cases parseElems fuel d t <;> rfl
            · rw [if_neg h1]
              by_cases h2 : c = ']'
              · subst h2; rfl
              · rw [if_neg h2]
                split <;> first | (rename_i heq; cases heq; first | exact absurd rfl h1 | exact absurd rfl h2) | rfl
          · obtain ⟨b, bs, he, hb, -⟩ := high_cons hc
            have hb := bch_high hb
            rw [utf8_cons, he, List.cons_append]
            simp only [if_neg (ne_ascii hb (d := ',') (by decide)), if_neg (ne_ascii hb (d := ']') (by decide))]
            split <;> first | (rename_i heq; cases heq; exact absurd (by decide) hc) | rfl
    · rw [bParseMembers, parseMembers, bSkipWs_utf8]
      generalize skipWs s = t
      cases t with
      | nil => rfl
      | cons c t =>
        by_cases hc : c.toNat < 128
        · rw [utf8_ascii hc]
          simp only [bch_cbyte hc]
          by_cases h1 : c = '"'
          · subst h1
            simp only [if_true, bRawString_utf8]
            cases rawString false t with
            | none => rfl
            | some p =>
              obtain ⟨k, s2⟩ := p
              simp only [Option.map_some, utf8P, bSkipWs_utf8]
              generalize skipWs s2 = t2
              cases t2 with
              | nil => rfl
              | cons c2 t2 =>
                by_cases hc2 : c2.toNat < 128
                · rw [utf8_ascii hc2]
                  simp only [bch_cbyte hc2]
                  by_cases h2 : c2 = ':'
                  · subst h2
                    simp only [if_true, bSkipWs_utf8, ihV]
                    cases parseValue fuel d (skipWs t2) with
                    | error e => rfl
                    | ok p =>
                      obtain ⟨v, rest⟩ := p
                      simp only [utf8R, bSkipWs_utf8, bUnescapeStr_utf8]
                      generalize skipWs rest = t3
                      cases t3 with
                      | nil => rfl
                      | cons c3 t3 =>
                        by_cases hc3 : c3.toNat < 128
                        · rw [utf8_ascii hc3]
                          simp only [bch_cbyte hc3]
                          by_cases h4 : c3 = ','
                          · subst h4
                            simp only [if_true, ihM]
                            cases parseMembers fuel d t3 <;> rfl
                          · rw [if_neg h4]
                            by_cases h5 : c3 = '}'
                            · subst h5; rfl
                            · rw [if_neg h5]
                              split <;> first | (rename_i heq; cases heq; first | exact absurd rfl h4 | exact absurd rfl h5) | rfl
                        · obtain ⟨b, bs, he, hb, -⟩ := high_cons hc3
                          have hb := bch_high hb
                          rw [utf8_cons, he, List.cons_append]
                          simp only [if_neg (ne_ascii hb (d := ',') (by decide)), if_neg (ne_ascii hb (d := '}') (by decide))]
                          split <;> first | (rename_i heq; cases heq; exact absurd (by decide) hc3) | rfl
                  · rw [if_neg h2]
                    split <;> first | (rename_i heq; cases heq; exact absurd rfl h2) | rfl
                · obtain ⟨b, bs, he, hb, -⟩ := high_cons hc2
                  have hb := bch_high hb
                  rw [utf8_cons, he, List.cons_append]
                  simp only [if_neg (ne_ascii hb (d := ':') (by decide))]
                  split <;> first | (rename_i heq; cases heq; exact absurd (by decide) hc2) | rfl
          · rw [if_neg h1]
            split <;> first | (rename_i heq; cases heq; exact absurd rfl h1) | rfl
        · obtain ⟨b, bs, he, hb, -⟩ := high_cons hc
          have hb := bch_high hb
          rw [utf8_cons, he, List.cons_append]
          simp only [if_neg (ne_ascii hb (d := '"') (by decide))]
          split <;> first | (rename_i heq; cases heq; exact absurd (by decide) hc) | rfl

/-- **The parser on bytes.**  The bytes of a text are parsed as the text is. -/
theorem bParseBytes_utf8 (s : Str) : bParseBytes (utf8 s) = (parseBytes s).map JV.utf8 := by
  unfold bParseBytes parseBytes
  rw [bSkipWs_utf8, (bParse_utf8 _).1]
  have hlen : ∀ s : Str, s.length ≤ (utf8 s).length := by
    intro s
    induction s with
    | nil => simp [utf8_nil]
    | cons c s ih =>
      have := c.utf8Size_pos
      rw [utf8_cons, List.length_append, String.length_utf8EncodeChar, List.length_cons]; omega
  have h1 := hlen s
  have h2 := skipWs_len s
  cases hp : parseValue (2 * s.length + 2) maxDepth (skipWs s) with
  | ok p =>
    obtain ⟨v, rest⟩ := p
    rw [parse_lift (by omega) hp]
    simp only [utf8R, bSkipWs_utf8, utf8_eq_nil]
    split <;> rfl
  | error e =>
    cases hq : parseValue (2 * (utf8 s).length + 2) maxDepth (skipWs s) with
    | error e' => rfl
    | ok p =>
      rw [parse_enough (by omega) hq] at hp
      cases hp

end VJ
