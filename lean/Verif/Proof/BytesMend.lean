import Verif.Proof.BytesWrite

/-! # The parser on bytes that need not be UTF-8 -/

namespace VJ

/-- the mended text -/
noncomputable def mend (b : Bytes) : Str := Classical.choose (mended_exists b.length b (Nat.le_refl _))

theorem mend_mended (b : Bytes) : Mended b (mend b) := Classical.choose_spec (mended_exists b.length b (Nat.le_refl _))

theorem mend_eq {b : Bytes} {s : Str} (h : Mended b s) : mend b = s := mended_unique (mend_mended b) h

theorem mend_nil : mend [] = [] := mend_eq .nil

theorem mend_char (c : Char) (b : Bytes) : mend (String.utf8EncodeChar c ++ b) = c :: mend b := mend_eq (.char (mend_mended b))

theorem mend_bad {x : UInt8} {b : Bytes} (h : decodeRune8 (x :: b) = none) : mend (x :: b) = Char.ofNat 0xFFFD :: mend b :=
  mend_eq (.bad (decode_none.1 h) (mend_mended b))

theorem cbyte_bch {x : UInt8} (h : x.toNat < 128) : cbyte (bch x) = x :=
  u8_ext (by rw [cbyte_toNat (by rw [bch_toNat]; exact h), bch_toNat])

theorem bch_low {x : UInt8} (h : x.toNat < 128) : (bch x).toNat < 128 := by rw [bch_toNat]; exact h

theorem encode_bch {x : UInt8} (h : x.toNat < 128) : String.utf8EncodeChar (bch x) = [x] := by
  rw [encode_ascii (bch_low h), cbyte_bch h]

theorem mend_ascii {x : UInt8} (h : x.toNat < 128) (t : Bytes) : mend (x :: t) = bch x :: mend t := by
  have := mend_char (bch x) t
  rwa [encode_bch h] at this

theorem mend_cbyte {c : Char} (h : c.toNat < 128) (t : Bytes) : mend (cbyte c :: t) = c :: mend t := by
  have := mend_char c t
  rwa [encode_ascii h] at this

theorem mend_high {x : UInt8} (h : 128 ≤ x.toNat) (t : Bytes) : ∃ c s, ¬ c.toNat < 128 ∧ mend (x :: t) = c :: s := by
  cases hd : decodeRune8 (x :: t) with
  | none => exact ⟨_, _, by decide, mend_bad hd⟩
  | some p =>
    obtain ⟨c, w⟩ := p
    have he := (decode_some hd).1
    refine ⟨c, mend ((x :: t).drop w), fun hc => ?_, ?_⟩
    · rw [encode_ascii hc] at he
      have := (List.cons_eq_cons.1 he).1
      rw [this, cbyte_toNat hc] at h
      omega
    · conv => lhs; rw [he]
      exact mend_char c _

theorem mend_eq_nil {b : Bytes} : mend b = [] ↔ b = [] := by
  constructor
  · intro h
    cases b with
    | nil => rfl
    | cons x t =>
      by_cases hx : x.toNat < 128
      · rw [mend_ascii hx] at h; cases h
      · obtain ⟨c, s, -, he⟩ := mend_high (x := x) (by omega) t
        rw [he] at h; cases h
  · rintro rfl; exact mend_nil

/-- an ASCII character at the beginning is an ASCII byte at the beginning -/
theorem mend_first {b : Bytes} {c : Char} {s : Str} (h : mend b = c :: s) (hc : c.toNat < 128) : ∃ t, b = cbyte c :: t ∧ mend t = s := by
  cases b with
  | nil => rw [mend_nil] at h; cases h
  | cons x t =>
    by_cases hx : x.toNat < 128
    · rw [mend_ascii hx] at h
      cases h
      exact ⟨t, by rw [cbyte_bch hx], rfl⟩
    · obtain ⟨c', s', hc', he⟩ := mend_high (x := x) (by omega) t
      rw [he] at h
      cases h
      exact absurd hc hc'

/-- no continuation byte at the beginning -/
def NC (q : Bytes) : Prop := ∀ y t, q = y :: t → ∀ lo hi, 0x80 ≤ lo → hi ≤ 0xBF → between lo hi y = false

theorem NC_nil : NC [] := fun _ _ h => by cases h

theorem NC_cons {x : UInt8} (h : x.toNat < 128) (t : Bytes) : NC (x :: t) := by
  intro y t' he lo hi h1 h2
  cases he
  cases hb : between lo hi x with
  | false => rfl
  | true => rw [between_iff] at hb; omega

theorem NC_encode (c : Char) (t : Bytes) : NC (String.utf8EncodeChar c ++ t) := by
  intro y t' he lo hi h1 h2
  have hc := char_range c
  cases hb : between lo hi y with
  | false => rfl
  | true =>
    exfalso
    rw [between_iff] at hb
    rw [encode_eq, runeBytes] at he
    by_cases h3 : c.toNat < 0x80
    · simp only [if_pos h3, List.cons_append] at he
      obtain ⟨e, -⟩ := List.cons_eq_cons.1 he
      have := u8_ofNat (n := c.toNat) (by omega)
      rw [e] at this
      omega
    · by_cases h4 : c.toNat < 0x800
      · simp only [if_neg h3, if_pos h4, List.cons_append] at he
        obtain ⟨e, -⟩ := List.cons_eq_cons.1 he
        have := u8_ofNat (n := 0xC0 + c.toNat / 64) (by omega)
        rw [e] at this
        omega
      · by_cases h5 : c.toNat < 0x10000
        · simp only [if_neg h3, if_neg h4, if_pos h5, List.cons_append] at he
          obtain ⟨e, -⟩ := List.cons_eq_cons.1 he
          have := u8_ofNat (n := 0xE0 + c.toNat / 4096) (by omega)
          rw [e] at this
          omega
        · simp only [if_neg h3, if_neg h4, if_neg h5, List.cons_append] at he
          obtain ⟨e, -⟩ := List.cons_eq_cons.1 he
          have := u8_ofNat (n := 0xF0 + c.toNat / 262144) (by omega)
          rw [e] at this
          omega

theorem decode_cut {p q : Bytes} (hp : p ≠ []) (hq : NC q) : decodeRune8 (p ++ q) = decodeRune8 p := by
  cases q with
  | nil => rw [List.append_nil]
  | cons y q =>
  have hy := hq y q rfl
  have h0 := hy 0x80 0xBF (by omega) (by omega)
  cases p with
  | nil => exact absurd rfl hp
  | cons b bs =>
    have h1 : between (if b.toNat = 0xE0 then 0xA0 else 0x80) (if b.toNat = 0xED then 0x9F else 0xBF) y = false :=
      hy _ _ (by split <;> omega) (by split <;> omega)
    have h2 : between (if b.toNat = 0xF0 then 0x90 else 0x80) (if b.toNat = 0xF4 then 0x8F else 0xBF) y = false :=
      hy _ _ (by split <;> omega) (by split <;> omega)
    simp only [List.cons_append, decodeRune8]
    split
    · rfl
    · split
      · rfl
      · split
        · cases bs with
          | nil => simp [h0]
          | cons x bs => rfl
        · split
          · match bs with
            | [] =>
              cases q with
              | nil => rfl
              | cons z q => simp [h1]
            | [x] => simp [h0]
            | x :: y :: bs => rfl
          · split
            · match bs with
              | [] =>
                match q with
                | [] => rfl
                | [z] => rfl
                | z :: z' :: q => simp [h2]
              | [x] =>
                match q with
                | [] => rfl
                | z :: q => simp [h0]
              | [x, x'] => simp [h0]
              | x :: y :: z :: bs => rfl
            · rfl

theorem mend_append : ∀ (n : Nat) {p q : Bytes}, p.length ≤ n → NC q → mend (p ++ q) = mend p ++ mend q
  | _, [], q, _, _ => by rw [mend_nil]; rfl
  | 0, _ :: _, _, h, _ => by simp at h
  | n + 1, x :: p, q, h, hq => by
    simp only [List.length_cons] at h
    have hcut := decode_cut (p := x :: p) (by simp) hq
    cases hd : decodeRune8 (x :: p) with
    | none =>
      rw [hd] at hcut
      rw [List.cons_append] at hcut ⊢
      rw [mend_bad hcut, mend_bad hd, mend_append n (by omega) hq]
      rfl
    | some r =>
      obtain ⟨c, w⟩ := r
      have he := (decode_some hd).1
      have hl := congrArg List.length he
      have := c.utf8Size_pos
      rw [List.length_append, String.length_utf8EncodeChar, List.length_cons] at hl
      generalize hr : (x :: p).drop w = r at he hl
      rw [he, List.append_assoc, mend_char, mend_char, mend_append n (by omega) hq]
      rfl

theorem mend_app {p q : Bytes} (hq : NC q) : mend (p ++ q) = mend p ++ mend q := mend_append p.length (Nat.le_refl _) hq

theorem mend_len (b : Bytes) : (mend b).length ≤ b.length := by
  have h := mend_mended b
  generalize mend b = s at h
  induction h with
  | nil => simp
  | @char c b s _ ih =>
    have := c.utf8Size_pos
    rw [List.length_append, String.length_utf8EncodeChar, List.length_cons]; omega
  | bad _ _ ih => simp only [List.length_cons]; omega

theorem mend_all_high {h : Bytes} (hh : ∀ x ∈ h, 128 ≤ x.toNat) : ∀ c ∈ mend h, ¬ c.toNat < 128 := by
  have hm := mend_mended h
  generalize mend h = s at hm
  induction hm with
  | nil => simp
  | @char c b s _ ih =>
    intro d hd hlt
    rcases List.mem_cons.1 hd with rfl | hd
    · have := hh (cbyte d) (by rw [encode_ascii hlt]; simp)
      rw [cbyte_toNat hlt] at this
      omega
    · exact ih (fun x hx => hh x (by simp [hx])) d hd hlt
  | bad _ _ ih =>
    intro d hd hlt
    rcases List.mem_cons.1 hd with rfl | hd
    · exact absurd hlt (by decide)
    · exact ih (fun x hx => hh x (by simp [hx])) d hd hlt

/-- the bytes above ASCII at the beginning, and the rest -/
theorem high_run : ∀ b : Bytes, ∃ h t, b = h ++ t ∧ (∀ x ∈ h, 128 ≤ x.toNat) ∧ (t = [] ∨ ∃ x t', t = x :: t' ∧ x.toNat < 128)
  | [] => ⟨[], [], rfl, by simp, .inl rfl⟩
  | x :: b => by
    by_cases hx : x.toNat < 128
    · exact ⟨[], x :: b, rfl, by simp, .inr ⟨x, b, rfl, hx⟩⟩
    · obtain ⟨h, t, rfl, h1, h2⟩ := high_run b
      refine ⟨x :: h, t, rfl, fun y hy => ?_, h2⟩
      rcases List.mem_cons.1 hy with rfl | hy
      · omega
      · exact h1 y hy

/-- … if there is one -/
theorem high_run_cons {x : UInt8} (hx : ¬ x.toNat < 128) (b : Bytes) :
    ∃ h t, b = h ++ t ∧ (∀ y ∈ x :: h, 128 ≤ y.toNat) ∧ (t = [] ∨ ∃ x t', t = x :: t' ∧ x.toNat < 128) := by
  obtain ⟨h, t, rfl, h1, h2⟩ := high_run b
  refine ⟨h, t, rfl, fun y hy => ?_, h2⟩
  rcases List.mem_cons.1 hy with rfl | hy
  · omega
  · exact h1 y hy

theorem NC_of {t : Bytes} (h : t = [] ∨ ∃ x t', t = x :: t' ∧ x.toNat < 128) : NC t := by
  rcases h with rfl | ⟨x, t', rfl, hx⟩
  · exact NC_nil
  · exact NC_cons hx _

theorem skipWs_mend : ∀ b, skipWs (mend b) = mend (bSkipWs b)
  | [] => by rw [mend_nil]; simp [skipWs, bSkipWs, mend_nil]
  | x :: b => by
    by_cases hx : x.toNat < 128
    · rw [mend_ascii hx, skipWs, bSkipWs]
      split
      · exact skipWs_mend b
      · rw [mend_ascii hx]
    · obtain ⟨c, s, hc, he⟩ := mend_high (x := x) (by omega) b
      rw [he, skipWs, isWs_high hc, bSkipWs, isWs_high (bch_high (by omega))]
      simp [he]

/-- both parts mended -/
noncomputable def mendP (p : Bytes × Bytes) : Str × Str := (mend p.1, mend p.2)

theorem rawString_high : ∀ {h : Str}, (∀ c ∈ h, ¬ c.toNat < 128) → h ≠ [] → ∀ (e : Bool) (t : Str),
    rawString e (h ++ t) = (rawString false t).map fun p => (h ++ p.1, p.2)
  | [], _, h, _, _ => absurd rfl h
  | [b], hb, _, e, t => by
    have h := hb b (by simp)
    rw [List.cons_append, rawString, if_neg (fun h' => ne_ascii h (d := '"') (by decide) h'.1)]
    simp only [ne_ascii h (d := '\\') (by decide), decide_false, Bool.false_and, List.nil_append]
    cases rawString false t <;> rfl
  | b :: b' :: bs, hb, _, e, t => by
    have h := hb b (by simp)
    rw [List.cons_append, rawString, if_neg (fun h' => ne_ascii h (d := '"') (by decide) h'.1)]
    simp only [ne_ascii h (d := '\\') (by decide), decide_false, Bool.false_and]
    rw [rawString_high (fun x hx => hb x (by simp [List.mem_cons.1 hx])) (by simp)]
    cases rawString false t <;> rfl

theorem bRawString_NC {e : Bool} {t r rest : Bytes} (ht : t = [] ∨ ∃ x t', t = x :: t' ∧ x.toNat < 128) (h : bRawString e t = some (r, rest)) : NC r := by
  rcases ht with rfl | ⟨x, t', rfl, hx⟩
  · cases h
  · rw [bRawString] at h
    split at h
    · cases h; exact NC_nil
    · split at h
      · cases h; exact NC_cons hx _
      · cases h

theorem rawString_mend : ∀ (n : Nat) (b : Bytes), b.length ≤ n → ∀ e, rawString e (mend b) = (bRawString e b).map mendP
  | _, [], _, _ => by rw [mend_nil]; rfl
  | 0, _ :: _, h, _ => by simp at h
  | n + 1, x :: b, h, e => by
    simp only [List.length_cons] at h
    by_cases hx : x.toNat < 128
    · rw [mend_ascii hx, rawString, bRawString]
      split
      · simp only [Option.map_some, mendP, mend_nil]
      · rw [rawString_mend n b (by omega)]
        cases bRawString (decide (bch x = '\\') && !e) b with
        | none => rfl
        | some p => simp only [Option.map_some, mendP, mend_ascii hx]
    · obtain ⟨h', t, rfl, hh, ht⟩ := high_run_cons hx b
      obtain ⟨c, s, -, he⟩ := mend_high (x := x) (by omega) h'
      rw [List.length_append] at h
      rw [← List.cons_append, mend_app (NC_of ht), rawString_high (mend_all_high hh) (by rw [he]; simp), bRawString_high hh (by simp),
        rawString_mend n t (by omega)]
      cases hr : bRawString false t with
      | none => rfl
      | some p => simp only [Option.map_some, mendP, mend_app (bRawString_NC ht hr)]

/-! ## Escapes -/

theorem esc4_mend (b : Bytes) : esc4 (mend b) = (bEsc4 b).map fun p => (p.1, mend p.2) := by
  cases he : bEsc4 b with
  | some p =>
    match b, he with
    | h1 :: h2 :: h3 :: h4 :: tail, he =>
      simp only [bEsc4, Option.map_eq_some_iff] at he
      obtain ⟨x, hx, rfl⟩ := he
      obtain ⟨a1, a2, a3, a4⟩ := hex4_ascii hx
      rw [bch_toNat] at a1 a2 a3 a4
      rw [mend_ascii a1, mend_ascii a2, mend_ascii a3, mend_ascii a4]
      rw [bHex4] at hx
      simp only [esc4, hx]
      rfl
  | none =>
    cases hb : esc4 (mend b) with
    | none => rfl
    | some p =>
      exfalso
      cases hu : mend b with
      | nil => rw [hu] at hb; cases hb
      | cons b1 t1 => cases t1 with
        | nil => rw [hu] at hb; cases hb
        | cons b2 t2 => cases t2 with
          | nil => rw [hu] at hb; cases hb
          | cons b3 t3 => cases t3 with
            | nil => rw [hu] at hb; cases hb
            | cons b4 t4 =>
              rw [hu] at hb
              simp only [esc4, Option.map_eq_some_iff] at hb
              obtain ⟨x, hx, rfl⟩ := hb
              obtain ⟨a1, a2, a3, a4⟩ := hex4_ascii hx
              obtain ⟨s1, rfl, h1⟩ := mend_first hu a1
              obtain ⟨s2, rfl, h2⟩ := mend_first h1 a2
              obtain ⟨s3, rfl, h3⟩ := mend_first h2 a3
              obtain ⟨s4, rfl, h4⟩ := mend_first h3 a4
              simp only [bEsc4, bHex4, Option.map_eq_none_iff, bch_cbyte a1, bch_cbyte a2, bch_cbyte a3, bch_cbyte a4] at he
              rw [he] at hx
              cases hx

theorem lowHalf_mend (b : Bytes) : lowHalf (mend b) = (bLowHalf b).map fun p => (p.1, mend p.2) := by
  rw [bLowHalf_eq]
  match b with
  | [] => rw [mend_nil]; rfl
  | [x] =>
    by_cases hx : x.toNat < 128
    · rw [mend_ascii hx, mend_nil]; rfl
    · obtain ⟨c, s, hc, he⟩ := mend_high (x := x) (by omega) []
      rw [he]
      cases s with
      | nil => rfl
      | cons c' s => simp only [lowHalf, ne_ascii hc (d := '\\') (by decide), false_and, if_false]; rfl
  | x :: u :: rest =>
    simp only
    by_cases hx : x.toNat < 128
    · by_cases hu : u.toNat < 128
      · rw [mend_ascii hx, mend_ascii hu]
        simp only [lowHalf]
        split
        · exact esc4_mend rest
        · rfl
      · obtain ⟨c, s, hc, he⟩ := mend_high (x := u) (by omega) rest
        rw [mend_ascii hx, he]
        simp only [lowHalf, ne_ascii hc (d := 'u') (by decide), and_false, if_false, ne_ascii (bch_high (b := u) (by omega)) (d := 'u') (by decide)]
        rfl
    · obtain ⟨c, s, hc, he⟩ := mend_high (x := x) (by omega) (u :: rest)
      rw [he]
      simp only [ne_ascii (bch_high (b := x) (by omega)) (d := '\\') (by decide), false_and, if_false]
      cases s with
      | nil => rfl
      | cons c' s => simp only [lowHalf, ne_ascii hc (d := '\\') (by decide), false_and, if_false]; rfl

theorem unescape_high : ∀ {h : Str}, (∀ c ∈ h, ¬ c.toNat < 128) → ∀ (g : Nat) (t : Str), unescape (g + h.length) (h ++ t) = h ++ unescape g t
  | [], _, _, _ => rfl
  | b :: bs, hb, g, t => by
    have h := hb b (by simp)
    rw [List.length_cons, ← Nat.add_assoc, List.cons_append, unescape_other _ (ne_ascii h (d := '\\') (by decide)),
      unescape_high (fun x hx => hb x (by simp [hx]))]
    rfl

theorem bEsc4_some {b tail : Bytes} {x : Nat} (h : bEsc4 b = some (x, tail)) :
    ∃ h1 h2 h3 h4, b = h1 :: h2 :: h3 :: h4 :: tail ∧ h1.toNat < 128 ∧ h2.toNat < 128 ∧ h3.toNat < 128 ∧ h4.toNat < 128 := by
  match b, h with
  | h1 :: h2 :: h3 :: h4 :: t, h =>
    simp only [bEsc4, Option.map_eq_some_iff] at h
    obtain ⟨y, hy, hxt⟩ := h
    cases hxt
    obtain ⟨a1, a2, a3, a4⟩ := hex4_ascii hy
    rw [bch_toNat] at a1 a2 a3 a4
    exact ⟨h1, h2, h3, h4, rfl, a1, a2, a3, a4⟩

theorem bLowHalf_some {b tail : Bytes} {x : Nat} (h : bLowHalf b = some (x, tail)) : tail.length < b.length ∧ (mend tail).length < (mend b).length := by
  rw [bLowHalf_eq] at h
  match b, h with
  | b :: u :: rest, h =>
    simp only at h
    split at h
    · rename_i hbu
      obtain ⟨h1, h2, h3, h4, rfl, a1, a2, a3, a4⟩ := bEsc4_some h
      have hb : b.toNat < 128 := by rw [← bch_toNat, hbu.1]; decide
      have hu : u.toNat < 128 := by rw [← bch_toNat, hbu.2]; decide
      rw [mend_ascii hb, mend_ascii hu, mend_ascii a1, mend_ascii a2, mend_ascii a3, mend_ascii a4]
      simp only [List.length_cons]
      omega
    · cases h

theorem bUnescape_NC {t : Bytes} (ht : t = [] ∨ ∃ x t', t = x :: t' ∧ x.toNat < 128) (g : Nat) : NC (bUnescape g t) := by
  cases g with
  | zero => rw [bUnescape]; exact NC_nil
  | succ g =>
  rcases ht with rfl | ⟨x, t', rfl, hx⟩
  · rw [bUnescape]; exact NC_nil
  · by_cases hb : bch x = '\\'
    · cases t' with
      | nil =>
        rw [bUnescape.eq_def]
        simp only [hb, ne_eq, not_true_eq_false, if_false]
        exact NC_nil
      | cons e rest =>
        by_cases he : bch e = 'u'
        · rw [bUnescape_u g hb he]
          split
          · exact NC_cons hx _
          · split
            · split
              · rw [← encode_eq]; exact NC_encode _ _
              · exact NC_cons hx _
            · rw [← encode_eq]; exact NC_encode _ _
        · rw [bUnescape_simple g hb he]
          split
          · rename_i d hd
            exact NC_cons (by rw [cbyte_toNat (simpleEsc_ascii hd)]; exact simpleEsc_ascii hd) _
          · exact NC_cons hx _
    · rw [bUnescape_other g hb]
      exact NC_cons hx _

theorem unescape_mend : ∀ (n : Nat) (b : Bytes), b.length ≤ n → ∀ f g, (mend b).length < f → b.length < g →
    unescape f (mend b) = mend (bUnescape g b) := by
  intro n
  induction n with
  | zero =>
    intro b hs f g hf hg
    cases b with
    | nil => rw [mend_nil]; cases f <;> cases g <;> simp [unescape, bUnescape, mend_nil]
    | cons c s => simp at hs
  | succ n ih =>
    intro b hs f g hf hg
    cases b with
    | nil => rw [mend_nil]; cases f <;> cases g <;> simp [unescape, bUnescape, mend_nil]
    | cons x b =>
    obtain ⟨g, rfl⟩ : ∃ k, g = k + 1 := ⟨g - 1, by simp at hg; omega⟩
    simp only [List.length_cons] at hs hg
    by_cases hx : x.toNat < 128
    · rw [mend_ascii hx] at hf ⊢
      obtain ⟨f, rfl⟩ : ∃ k, f = k + 1 := ⟨f - 1, by omega⟩
      simp only [List.length_cons] at hf
      by_cases hbs : bch x = '\\'
      · rw [hbs]
        cases b with
        | nil =>
          rw [mend_nil, bUnescape.eq_def]
          simp [unescape, hbs, mend_nil]
        | cons e rest =>
          simp only [List.length_cons] at hs hg
          by_cases he : e.toNat < 128
          · rw [mend_ascii he] at hf ⊢
            simp only [List.length_cons] at hf
            by_cases heu : bch e = 'u'
            · rw [heu, bUnescape_u g hbs heu, unescape_u, esc4_mend]
              cases h4 : bEsc4 rest with
              | none =>
                simp only [Option.map_none]
                rw [ih rest (by omega) f g (by omega) (by omega), mend_ascii hx, mend_ascii he, hbs, heu]
              | some p =>
                obtain ⟨y, tail⟩ := p
                obtain ⟨k1, k2, k3, k4, rfl, a1, a2, a3, a4⟩ := bEsc4_some h4
                rw [mend_ascii a1, mend_ascii a2, mend_ascii a3, mend_ascii a4] at hf ⊢
                simp only [List.length_cons] at hs hf hg
                simp only [Option.map_some]
                split
                · rw [lowHalf_mend]
                  cases hl : bLowHalf tail with
                  | none =>
                    simp only [Option.map_none]
                    rw [ih tail (by omega) f g (by omega) (by omega), mend_ascii hx, mend_ascii he, hbs, heu]
                    simp only [List.take_succ_cons, List.take_zero, List.cons_append, List.nil_append]
                    rw [mend_ascii a1, mend_ascii a2, mend_ascii a3, mend_ascii a4]
                  | some q =>
                    obtain ⟨z, tail'⟩ := q
                    obtain ⟨h6, h7⟩ := bLowHalf_some hl
                    simp only [Option.map_some]
                    rw [ih tail' (by omega) f g (by omega) (by omega), ← encode_eq, mend_char]
                · rw [ih tail (by omega) f g (by omega) (by omega), ← encode_eq, mend_char]
            · rw [bUnescape_simple _ hbs heu, unescape_simple _ heu, ih rest (by omega) f g (by omega) (by omega)]
              cases hse : simpleEsc (bch e) with
              | none => simp only; rw [mend_ascii hx, mend_ascii he, hbs]
              | some d => simp only; rw [mend_cbyte (simpleEsc_ascii hse)]
          · obtain ⟨h', t, rfl, hh, ht⟩ := high_run_cons he rest
            have hh' : ∀ y ∈ h', 128 ≤ y.toNat := fun y hy => hh y (by simp [hy])
            have heb := bch_high (b := e) (by omega)
            obtain ⟨c, s, hc, hm⟩ := mend_high (x := e) (by omega) h'
            have hall := mend_all_high hh
            rw [hm] at hall
            rw [← List.cons_append, mend_app (NC_of ht), hm] at hf ⊢
            simp only [List.cons_append, List.length_cons, List.length_append] at hs hg hf ⊢
            rw [bUnescape_simple _ hbs (ne_ascii heb (by decide)), simpleEsc_high heb, unescape_simple _ (ne_ascii hc (by decide)), simpleEsc_high hc]
            simp only
            obtain ⟨g, rfl⟩ : ∃ k, g = k + h'.length := ⟨g - h'.length, by omega⟩
            obtain ⟨f, rfl⟩ : ∃ k, f = k + s.length := ⟨f - s.length, by omega⟩
            rw [bUnescape_high hh', unescape_high (fun y hy => hall y (by simp [hy])), ih t (by omega) f g (by omega) (by omega), mend_ascii hx, hbs,
              show e :: (h' ++ bUnescape g t) = (e :: h') ++ bUnescape g t from rfl, mend_app (bUnescape_NC ht g), hm]
            rfl
      · rw [bUnescape_other _ hbs, unescape_other _ hbs, mend_ascii hx, ih b (by omega) f g (by omega) (by omega)]
    · obtain ⟨h', t, rfl, hh, ht⟩ := high_run_cons hx b
      have hall := mend_all_high hh
      rw [List.length_append] at hs hg
      rw [← List.cons_append, mend_app (NC_of ht), List.length_append] at hf
      rw [← List.cons_append, mend_app (NC_of ht)]
      have hml := mend_eq_nil (b := x :: h')
      obtain ⟨f, rfl⟩ : ∃ k, f = k + (mend (x :: h')).length := ⟨f - (mend (x :: h')).length, by omega⟩
      obtain ⟨g, rfl⟩ : ∃ k, g = k + h'.length := ⟨g - h'.length, by omega⟩
      rw [unescape_high hall, show g + h'.length + 1 = g + (x :: h').length by simp [Nat.add_assoc], bUnescape_high hh, mend_app (bUnescape_NC ht g),
        ih t (by omega) f g (by omega) (by omega)]

theorem unescapeStr_mend (b : Bytes) : unescapeStr (mend b) = mend (bUnescapeStr b) :=
  unescape_mend b.length b (by omega) _ _ (by omega) (by omega)

/-! ## Numbers and words -/

theorem spanNum_mend : ∀ b, spanNum (mend b) = mendP (bSpanNum b)
  | [] => by rw [mend_nil]; simp [spanNum, bSpanNum, mendP, mend_nil]
  | x :: b => by
    by_cases hx : x.toNat < 128
    · rw [mend_ascii hx, spanNum, bSpanNum]
      split
      · rw [spanNum_mend b]; simp only [mendP, mend_ascii hx]
      · simp only [mendP, mend_ascii hx, mend_nil]
    · obtain ⟨c, s, hc, he⟩ := mend_high (x := x) (by omega) b
      rw [he, spanNum, isNumChar_high hc, bSpanNum, isNumChar_high (bch_high (by omega))]
      simp [mendP, mend_nil, he]

theorem infNan_mend (b : Bytes) : infNan (mend b) = (bInfNan b).map mendP := by
  cases he : bInfNan b with
  | some p =>
    match b, he with
    | h1 :: h2 :: h3 :: tail, he =>
      simp only [bInfNan] at he
      split at he
      · rename_i hx
        cases he
        obtain ⟨a1, a2, a3⟩ := isInfNan_ascii hx
        rw [bch_toNat] at a1 a2 a3
        rw [mend_ascii a1, mend_ascii a2, mend_ascii a3]
        simp only [infNan, hx, if_true, Option.map_some, mendP]
        rw [mend_ascii a1, mend_ascii a2, mend_ascii a3, mend_nil]
      · cases he
  | none =>
    cases hb : infNan (mend b) with
    | none => rfl
    | some p =>
      exfalso
      cases hu : mend b with
      | nil => rw [hu] at hb; cases hb
      | cons b1 t1 => cases t1 with
        | nil => rw [hu] at hb; cases hb
        | cons b2 t2 => cases t2 with
          | nil => rw [hu] at hb; cases hb
          | cons b3 t3 =>
            rw [hu] at hb
            simp only [infNan] at hb
            split at hb
            · rename_i hx
              obtain ⟨a1, a2, a3⟩ := isInfNan_ascii hx
              obtain ⟨s1, rfl, h1⟩ := mend_first hu a1
              obtain ⟨s2, rfl, h2⟩ := mend_first h1 a2
              obtain ⟨s3, rfl, h3⟩ := mend_first h2 a3
              simp [bInfNan, hx, bch_cbyte a1, bch_cbyte a2, bch_cbyte a3] at he
            · cases hb

theorem bInfNan_NC {b : Bytes} {p : Bytes × Bytes} (h : bInfNan b = some p) : NC p.1 := by
  match b, h with
  | h1 :: h2 :: h3 :: tail, h =>
    simp only [bInfNan] at h
    split at h
    · rename_i hx
      cases h
      obtain ⟨a1, -, -⟩ := isInfNan_ascii hx
      rw [bch_toNat] at a1
      exact NC_cons a1 _
    · cases h

theorem mend_eq_one {b : Bytes} {c : Char} (hc : c.toNat < 128) : mend b = [c] ↔ b = [cbyte c] := by
  constructor
  · intro h
    obtain ⟨t, rfl, ht⟩ := mend_first h hc
    rw [mend_eq_nil.1 ht]
  · rintro rfl
    rw [mend_cbyte hc, mend_nil]

theorem rawNumber_mend (b : Bytes) : rawNumber (mend b) = (bRawNumber b).map mendP := by
  rw [bRawNumber_eq, rawNumber_eq, spanNum_mend]
  simp only [mendP, mend_eq_nil, mend_eq_one (c := '-') (by decide), mend_eq_one (c := '+') (by decide), infNan_mend]
  split
  · simp only [Option.map_some, mendP, mend_nil]
  · split
    · cases hi : bInfNan (bSpanNum b).2 with
      | none => rfl
      | some p => simp only [Option.map_some, mendP, mend_app (bInfNan_NC hi)]
    · rfl

theorem stripPrefix_mend : ∀ (p : Str) (b : Bytes), (∀ c ∈ p, c.toNat < 128) → stripPrefix p (mend b) = (bStripPrefix p b).map mend
  | [], b, _ => by simp [stripPrefix, bStripPrefix]
  | _ :: _, [], _ => by rw [mend_nil]; rfl
  | p :: ps, x :: b, h => by
    by_cases hx : x.toNat < 128
    · rw [mend_ascii hx, bStripPrefix, stripPrefix]
      split
      · exact stripPrefix_mend ps b fun d hd => h d (by simp [hd])
      · rfl
    · obtain ⟨c, s, hc, he⟩ := mend_high (x := x) (by omega) b
      rw [he, bStripPrefix, if_neg (ne_ascii (bch_high (b := x) (by omega)) (h p (by simp))).symm, stripPrefix,
        if_neg (ne_ascii hc (h p (by simp))).symm]
      rfl

/-! ## The parser -/

mutual
noncomputable def BJV.mend : BJV → JV
  | .null => .null
  | .bool b => .bool b
  | .num raw => .num (VJ.mend raw)
  | .str s => .str (VJ.mend s)
  | .arr l => .arr (mendL l)
  | .obj kvs => .obj (mendKV kvs)
noncomputable def BJV.mendL : List BJV → List JV
  | [] => []
  | v :: vs => v.mend :: mendL vs
noncomputable def BJV.mendKV : List (Bytes × BJV) → List (Str × JV)
  | [] => []
  | (k, v) :: kvs => (VJ.mend k, v.mend) :: mendKV kvs
end

mutual
theorem mendedV (v : BJV) : MendedV v v.mend := by
  cases v with
  | null => rw [BJV.mend]; exact .null
  | bool b => rw [BJV.mend]; exact .bool b
  | num r => rw [BJV.mend]; exact .num (mend_mended r)
  | str r => rw [BJV.mend]; exact .str (mend_mended r)
  | arr l => rw [BJV.mend]; exact .arr (mendedL l)
  | obj l => rw [BJV.mend]; exact .obj (mendedKV l)
theorem mendedL (l : List BJV) : MendedL l (BJV.mendL l) := by
  cases l with
  | nil => rw [BJV.mendL]; exact .nil
  | cons v l => rw [BJV.mendL]; exact .cons (mendedV v) (mendedL l)
theorem mendedKV (l : List (Bytes × BJV)) : MendedKV l (BJV.mendKV l) := by
  cases l with
  | nil => rw [BJV.mendKV]; exact .nil
  | cons p l =>
    obtain ⟨k, v⟩ := p
    rw [BJV.mendKV]
    exact .cons (mend_mended k) (mendedV v) (mendedKV l)
end

noncomputable def mendR : Except PErr (BJV × Bytes) → Except PErr (JV × Str)
  | .ok (v, rest) => .ok (v.mend, mend rest)
  | .error e => .error e
noncomputable def mendRL : Except PErr (List BJV × Bytes) → Except PErr (List JV × Str)
  | .ok (v, rest) => .ok (BJV.mendL v, mend rest)
  | .error e => .error e
noncomputable def mendRKV : Except PErr (List (Bytes × BJV) × Bytes) → Except PErr (List (Str × JV) × Str)
  | .ok (v, rest) => .ok (BJV.mendKV v, mend rest)
  | .error e => .error e

theorem parseNull_mend (b : Bytes) : parseNull (mend b) = mendR (bParseNull (cbyte 'n') b) := by
  unfold bParseNull parseNull
  rw [stripPrefix_mend _ _ (by decide)]
  cases bStripPrefix (str "ull") b with
  | some rest => simp only [Option.map_some, mendR, BJV.mend]
  | none =>
    simp only [Option.map_none]
    match b with
    | [] => rw [mend_nil]; rfl
    | [x] =>
      by_cases hx : x.toNat < 128
      · rw [mend_ascii hx, mend_nil]; rfl
      · obtain ⟨c, s, hc, he⟩ := mend_high (x := x) (by omega) []
        rw [he]
        cases s with
        | nil => rfl
        | cons c' s =>
          simp only
          rw [if_neg fun h => hc (lowerChar_ascii h.1 (by decide))]
          rfl
    | x :: y :: rest =>
      simp only
      by_cases hx : x.toNat < 128
      · by_cases hy : y.toNat < 128
        · rw [mend_ascii hx, mend_ascii hy]
          simp only
          split
          · simp only [mendR, BJV.mend]
            rw [mend_cbyte (by decide), mend_ascii hx, mend_ascii hy, mend_nil]
          · rfl
        · obtain ⟨c, s, hc, he⟩ := mend_high (x := y) (by omega) rest
          rw [mend_ascii hx, he]
          simp only
          rw [if_neg fun h => hc (lowerChar_ascii h.2 (by decide)), if_neg fun h => bch_high (b := y) (by omega) (lowerChar_ascii h.2 (by decide))]
          rfl
      · obtain ⟨c, s, hc, he⟩ := mend_high (x := x) (by omega) (y :: rest)
        rw [if_neg fun h => bch_high (b := x) (by omega) (lowerChar_ascii h.1 (by decide)), he]
        cases s with
        | nil => rfl
        | cons c' s =>
          simp only
          rw [if_neg fun h => hc (lowerChar_ascii h.1 (by decide))]
          rfl

/-- the first byte, seen as a character, if it is ASCII -/
theorem mend_head (b : Bytes) {d : Char} (hd : d.toNat < 128) : ((mend b).head? = some d ↔ b.head?.map bch = some d) := by
  cases b with
  | nil => simp [mend_nil]
  | cons x b =>
    by_cases hx : x.toNat < 128
    · rw [mend_ascii hx]; simp
    · obtain ⟨c, s, hc, he⟩ := mend_high (x := x) (by omega) b
      rw [he]
      simp [ne_ascii (bch_high (b := x) (by omega)) hd, ne_ascii hc hd]

theorem mend_tail {b : Bytes} {d : Char} (hd : d.toNat < 128) (h : b.head?.map bch = some d) : (mend b).tail = mend b.tail := by
  cases b with
  | nil => cases h
  | cons x b =>
    have hx : x.toNat < 128 := by
      simp only [List.head?_cons, Option.map_some, Option.some.injEq] at h
      rw [← bch_toNat, h]; exact hd
    rw [mend_ascii hx]; rfl

theorem parse_mend : ∀ fuel,
    (∀ d b, parseValue fuel d (mend b) = mendR (bParseValue fuel d b)) ∧
    (∀ d b, parseElems fuel d (mend b) = mendRL (bParseElems fuel d b)) ∧
    (∀ d b, parseMembers fuel d (mend b) = mendRKV (bParseMembers fuel d b)) := by
  intro fuel
  induction fuel with
  | zero => exact ⟨fun _ _ => by simp [bParseValue, parseValue, mendR], fun _ _ => by simp [bParseElems, parseElems, mendRL],
      fun _ _ => by simp [bParseMembers, parseMembers, mendRKV]⟩
  | succ fuel ih =>
    obtain ⟨ihV, ihE, ihM⟩ := ih
    refine ⟨fun d b => ?_, fun d b => ?_, fun d b => ?_⟩
    · cases b with
      | nil => rw [mend_nil]; simp [bParseValue, parseValue, mendR]
      | cons x b =>
      cases d with
      | zero =>
        by_cases hx : x.toNat < 128
        · rw [mend_ascii hx]; simp [bParseValue, parseValue, mendR]
        · obtain ⟨c, s, hc, he⟩ := mend_high (x := x) (by omega) b
          rw [he]; simp [bParseValue, parseValue, mendR]
      | succ d =>
        have hn := rawNumber_mend (x :: b)
        by_cases hx : x.toNat < 128
        · rw [mend_ascii hx] at hn ⊢
          rw [bParseValue, parseValue]
          simp only [skipWs_mend, mend_head _ (d := '}') (by decide), mend_head _ (d := ']') (by decide), ihE, ihM,
            rawString_mend b.length b (Nat.le_refl _), stripPrefix_mend (str "rue") b (by decide), stripPrefix_mend (str "alse") b (by decide), hn]
          split
          · split
            · rename_i h; simp only [mendR, mend_tail (by decide) h, BJV.mend, BJV.mendKV]
            · cases bParseMembers fuel d (bSkipWs b) <;> simp only [mendR, mendRKV, BJV.mend]
          · split
            · split
              · rename_i h; simp only [mendR, mend_tail (by decide) h, BJV.mend, BJV.mendL]
              · cases bParseElems fuel d (bSkipWs b) <;> simp only [mendR, mendRL, BJV.mend]
            · split
              · cases bRawString false b with
                | none => rfl
                | some p => simp only [Option.map_some, mendP, mendR, BJV.mend, unescapeStr_mend]
              · split
                · cases bStripPrefix (str "rue") b <;> simp only [Option.map_none, Option.map_some, mendR, BJV.mend]
                · split
                  · cases bStripPrefix (str "alse") b <;> simp only [Option.map_none, Option.map_some, mendR, BJV.mend]
                  · split
                    · rename_i hcn
                      have : x = cbyte 'n' := by rw [← hcn, cbyte_bch hx]
                      subst this
                      exact parseNull_mend b
                    · cases bRawNumber (x :: b) <;> simp only [Option.map_none, Option.map_some, mendR, BJV.mend, mendP]
        · obtain ⟨c, s, hc, he⟩ := mend_high (x := x) (by omega) b
          have hb := bch_high (b := x) (by omega)
          rw [he] at hn ⊢
          rw [bParseValue, parseValue]
          simp only [if_neg (ne_ascii hc (d := '{') (by decide)), if_neg (ne_ascii hc (d := '[') (by decide)), if_neg (ne_ascii hc (d := '"') (by decide)),
            if_neg (ne_ascii hc (d := 't') (by decide)), if_neg (ne_ascii hc (d := 'f') (by decide)), if_neg (ne_ascii hc (d := 'n') (by decide)),
            if_neg (ne_ascii hb (d := '{') (by decide)), if_neg (ne_ascii hb (d := '[') (by decide)), if_neg (ne_ascii hb (d := '"') (by decide)),
            if_neg (ne_ascii hb (d := 't') (by decide)), if_neg (ne_ascii hb (d := 'f') (by decide)), if_neg (ne_ascii hb (d := 'n') (by decide)), hn]
          cases bRawNumber (x :: b) <;> simp only [Option.map_none, Option.map_some, mendR, BJV.mend, mendP]
    · rw [bParseElems, parseElems, skipWs_mend, ihV]
      cases bParseValue fuel d (bSkipWs b) with
      | error e => rfl
      | ok p =>
        obtain ⟨v, rest⟩ := p
        simp only [mendR, skipWs_mend]
        generalize bSkipWs rest = t
        cases t with
        | nil => rw [mend_nil]; rfl
        | cons x t =>
          by_cases hx : x.toNat < 128
          · rw [mend_ascii hx]
            simp only
            by_cases h1 : bch x = ','
            · rw [h1]
              simp only [if_true, ihE]
              cases bParseElems fuel d t <;> simp only [mendRL, BJV.mendL]
            · rw [if_neg h1]
              by_cases h2 : bch x = ']'
              · rw [h2]; simp only [if_true, mendRL, BJV.mendL]
              · rw [if_neg h2]
                split <;> first | (rename_i heq; exact absurd (List.cons_eq_cons.1 heq).1 h1) | (rename_i heq; exact absurd (List.cons_eq_cons.1 heq).1 h2) | rfl
          · obtain ⟨c, s, hc, he⟩ := mend_high (x := x) (by omega) t
            have hb := bch_high (b := x) (by omega)
            rw [he]
            simp only [if_neg (ne_ascii hb (d := ',') (by decide)), if_neg (ne_ascii hb (d := ']') (by decide))]
            split <;> first | (rename_i heq; cases heq; exact absurd (by decide) hc) | rfl
    · rw [bParseMembers, parseMembers, skipWs_mend]
      generalize bSkipWs b = t
      cases t with
      | nil => rw [mend_nil]; rfl
      | cons x t =>
        by_cases hx : x.toNat < 128
        · rw [mend_ascii hx]
          simp only
          by_cases h1 : bch x = '"'
          · rw [h1]
            simp only [if_true, rawString_mend t.length t (Nat.le_refl _)]
            cases bRawString false t with
            | none => rfl
            | some p =>
              obtain ⟨k, s2⟩ := p
              simp only [Option.map_some, mendP, skipWs_mend]
              generalize bSkipWs s2 = t2
              cases t2 with
              | nil => rw [mend_nil]; rfl
              | cons x2 t2 =>
                by_cases hx2 : x2.toNat < 128
                · rw [mend_ascii hx2]
                  simp only
                  by_cases h2 : bch x2 = ':'
                  · rw [h2]
                    simp only [if_true, skipWs_mend, ihV]
                    cases bParseValue fuel d (bSkipWs t2) with
                    | error e => rfl
                    | ok p =>
                      obtain ⟨v, rest⟩ := p
                      simp only [mendR, skipWs_mend, unescapeStr_mend]
                      generalize bSkipWs rest = t3
                      cases t3 with
                      | nil => rw [mend_nil]; rfl
                      | cons x3 t3 =>
                        by_cases hx3 : x3.toNat < 128
                        · rw [mend_ascii hx3]
                          simp only
                          by_cases h4 : bch x3 = ','
                          · rw [h4]
                            simp only [if_true, ihM]
                            cases bParseMembers fuel d t3 <;> simp only [mendRKV, BJV.mendKV]
                          · rw [if_neg h4]
                            by_cases h5 : bch x3 = '}'
                            · rw [h5]; simp only [if_true, mendRKV, BJV.mendKV]
                            · rw [if_neg h5]
                              split <;> first | (rename_i heq; exact absurd (List.cons_eq_cons.1 heq).1 h4) | (rename_i heq; exact absurd (List.cons_eq_cons.1 heq).1 h5) | rfl
                        · obtain ⟨c, s, hc, he⟩ := mend_high (x := x3) (by omega) t3
                          have hb := bch_high (b := x3) (by omega)
                          rw [he]
                          simp only [if_neg (ne_ascii hb (d := ',') (by decide)), if_neg (ne_ascii hb (d := '}') (by decide))]
                          split <;> first | (rename_i heq; cases heq; exact absurd (by decide) hc) | rfl
                  · rw [if_neg h2]
                    split <;> first | (rename_i heq; exact absurd (List.cons_eq_cons.1 heq).1 h2) | rfl
                · obtain ⟨c, s, hc, he⟩ := mend_high (x := x2) (by omega) t2
                  have hb := bch_high (b := x2) (by omega)
                  rw [he]
                  simp only [if_neg (ne_ascii hb (d := ':') (by decide))]
                  split <;> first | (rename_i heq; cases heq; exact absurd (by decide) hc) | rfl
          · rw [if_neg h1]
            split <;> first | (rename_i heq; exact absurd (List.cons_eq_cons.1 heq).1 h1) | rfl
        · obtain ⟨c, s, hc, he⟩ := mend_high (x := x) (by omega) t
          have hb := bch_high (b := x) (by omega)
          rw [he]
          simp only [if_neg (ne_ascii hb (d := '"') (by decide))]
          split <;> first | (rename_i heq; cases heq; exact absurd (by decide) hc) | rfl

/-- **The parser on any bytes.**  The mended bytes are parsed as the bytes are. -/
theorem parseBytes_mend (b : Bytes) : parseBytes (mend b) = (bParseBytes b).map BJV.mend := by
  unfold bParseBytes parseBytes
  rw [skipWs_mend]
  have h1 := mend_len b
  have h2 := skipWs_len (mend b)
  rw [skipWs_mend] at h2
  have key : ∀ {r : JV × Str}, parseValue (2 * (mend b).length + 2) maxDepth (mend (bSkipWs b)) = .ok r ↔
      parseValue (2 * b.length + 2) maxDepth (mend (bSkipWs b)) = .ok r :=
    ⟨fun h => parse_lift (by omega) h, fun h => parse_enough (by omega) h⟩
  have hv := (parse_mend (2 * b.length + 2)).1 maxDepth (bSkipWs b)
  cases hp : bParseValue (2 * b.length + 2) maxDepth (bSkipWs b) with
  | ok p =>
    obtain ⟨v, rest⟩ := p
    rw [hp] at hv
    rw [key.2 hv]
    simp only [skipWs_mend, mend_eq_nil]
    split <;> rfl
  | error e =>
    rw [hp] at hv
    cases hq : parseValue (2 * (mend b).length + 2) maxDepth (mend (bSkipWs b)) with
    | error e' => rfl
    | ok r =>
      rw [key.1 hq] at hv
      cases hv

end VJ
