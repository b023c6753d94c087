import Verif.Proof.BytesParse
import Verif.Proof.Codecs

/-! # `Writer.String` on bytes -/

namespace VJ

theorem hexChar_ascii {n : Nat} (h : n < 16) : (hexChar n).toNat < 128 := by
  have : ∀ n < 16, (hexChar n).toNat < 128 := by decide
  exact this n h

theorem escChar_ascii {c : Char} (hc : c.toNat < 128) : ∀ x ∈ escChar c, x.toNat < 128 := by
  intro x hx
  unfold escChar at hx
  repeat' split at hx
  all_goals simp only [List.mem_cons, List.not_mem_nil, or_false] at hx
  all_goals rcases hx with hx
  · rcases hx with rfl | rfl <;> decide
  · rcases hx with rfl | rfl <;> decide
  · rcases hx with rfl | rfl <;> decide
  · rcases hx with rfl | rfl <;> decide
  · rcases hx with rfl | rfl <;> decide
  · rcases hx with rfl | rfl | rfl | rfl | rfl | rfl
    · decide
    · decide
    · decide
    · decide
    · exact hexChar_ascii (by omega)
    · exact hexChar_ascii (by omega)
  · omega
  · subst hx; exact hc

/-- a character that is not ASCII is written as it is, unless it is one of two -/
theorem escChar_high {c : Char} (hc : ¬ c.toNat < 128) : escChar c =
    if c.toNat = 0x2028 ∨ c.toNat = 0x2029 then ['\\', 'u', '2', '0', '2', hexChar (c.toNat % 16)] else [c] := by
  unfold escChar
  rw [if_neg (ne_ascii hc (by decide)), if_neg (ne_ascii hc (by decide)), if_neg (ne_ascii hc (by decide)), if_neg (ne_ascii hc (by decide)),
    if_neg (ne_ascii hc (by decide)), if_neg]
  rintro (h | h | h | h)
  · omega
  · exact ne_ascii hc (by decide) h
  · exact ne_ascii hc (by decide) h
  · exact ne_ascii hc (by decide) h

theorem utf8_one (c : Char) : utf8 [c] = String.utf8EncodeChar c := by rw [utf8_cons, utf8_nil, List.append_nil]

theorem bEsc_char (fuel : Nat) (c : Char) (b : Bytes) : bEsc (fuel + 1) (String.utf8EncodeChar c ++ b) = utf8 (escChar c) ++ bEsc fuel b := by
  by_cases hc : c.toNat < 128
  · rw [encode_ascii hc, List.cons_append, List.nil_append, bEsc, if_pos (by rw [cbyte_toNat hc]; exact hc), bch_cbyte hc, lit_utf8 (escChar_ascii hc)]
  · have hd := decode_encode c b
    obtain ⟨x, bs, he, hx, -⟩ := high_cons hc
    have htake : (String.utf8EncodeChar c ++ b).take (String.utf8EncodeChar c).length = String.utf8EncodeChar c := List.take_left
    have hdrop : (String.utf8EncodeChar c ++ b).drop (String.utf8EncodeChar c).length = b := List.drop_left
    rw [he, List.cons_append] at hd htake hdrop
    rw [he, List.cons_append, bEsc, if_neg (by omega), hd]
    simp only
    rw [htake, hdrop, escChar_high hc]
    split
    · have : lit (str "\\u202") ++ lit [hexChar (c.toNat % 16)] = utf8 ['\\', 'u', '2', '0', '2', hexChar (c.toNat % 16)] := by
        rw [← lit_utf8]
        · rfl
        · intro x hx
          simp only [List.mem_cons, List.not_mem_nil, or_false] at hx
          rcases hx with rfl | rfl | rfl | rfl | rfl | rfl
          · decide
          · decide
          · decide
          · decide
          · decide
          · exact hexChar_ascii (by omega)
      rw [this]
    · rw [utf8_one, he]

theorem bEsc_bad (fuel : Nat) {x : UInt8} {b : Bytes} (hx : ¬ ∃ c r, x :: b = String.utf8EncodeChar c ++ r) :
    bEsc (fuel + 1) (x :: b) = utf8 (str "\\ufffd") ++ bEsc fuel b := by
  have h1 : ¬ x.toNat < 0x80 := by
    intro h
    refine hx ⟨bch x, b, ?_⟩
    have hb : (bch x).toNat < 128 := by rw [bch_toNat]; exact h
    have hc : cbyte (bch x) = x := u8_ext (by rw [cbyte_toNat hb, bch_toNat])
    rw [encode_ascii hb, hc]; rfl
  rw [bEsc, if_neg h1, decode_none.2 hx, lit_utf8 (by decide)]

theorem bEsc_utf8 : ∀ (s : Str) (fuel : Nat), s.length < fuel → bEsc fuel (utf8 s) = utf8 (escBody s)
  | [], fuel + 1, _ => rfl
  | c :: s, fuel + 1, h => by
    rw [utf8_cons, bEsc_char, bEsc_utf8 s fuel (by simpa using h), escBody, utf8_append]

theorem utf8_len (s : Str) : s.length ≤ (utf8 s).length := by
  induction s with
  | nil => simp [utf8_nil]
  | cons c s ih =>
    have := c.utf8Size_pos
    rw [utf8_cons, List.length_append, String.length_utf8EncodeChar, List.length_cons]; omega

theorem bJsonStr_utf8 (s : Str) : bJsonStr (utf8 s) = utf8 (jsonStr s) := by
  have := utf8_len s
  rw [bJsonStr, bEsc_utf8 s _ (by omega), jsonStr, lit_utf8 (by decide), ← utf8_append, ← utf8_append]
  rfl

theorem fffd_text : CharText (Char.ofNat 0xFFFD) (str "\\ufffd") := by
  refine .u ?_
  have := Hex4.mk (hexVal_iff.1 (show hexVal 'f' = some 15 by decide)) (hexVal_iff.1 (show hexVal 'f' = some 15 by decide))
    (hexVal_iff.1 (show hexVal 'f' = some 15 by decide)) (hexVal_iff.1 (show hexVal 'd' = some 13 by decide))
  exact this

/-- what is written for any bytes -/
theorem bEsc_mended {b : Bytes} {s : Str} (h : Mended b s) : ∀ fuel, b.length < fuel → ∃ body, bEsc fuel b = utf8 body ∧ StrText s body := by
  induction h with
  | nil =>
    intro fuel hf
    obtain ⟨f, rfl⟩ : ∃ f, fuel = f + 1 := ⟨fuel - 1, by omega⟩
    exact ⟨[], rfl, .nil⟩
  | @char c b s _ ih =>
    intro fuel hf
    obtain ⟨f, rfl⟩ : ∃ f, fuel = f + 1 := ⟨fuel - 1, by omega⟩
    have := c.utf8Size_pos
    rw [List.length_append, String.length_utf8EncodeChar] at hf
    obtain ⟨body, h1, h2⟩ := ih f (by omega)
    exact ⟨escChar c ++ body, by rw [bEsc_char, h1, utf8_append], .cons (escChar_text c) h2⟩
  | bad hx _ ih =>
    intro fuel hf
    obtain ⟨f, rfl⟩ : ∃ f, fuel = f + 1 := ⟨fuel - 1, by omega⟩
    rw [List.length_cons] at hf
    obtain ⟨body, h1, h2⟩ := ih f (by omega)
    exact ⟨str "\\ufffd" ++ body, by rw [bEsc_bad _ hx, h1, utf8_append], .cons fffd_text h2⟩

theorem mended_exists : ∀ (n : Nat) (b : Bytes), b.length ≤ n → ∃ s, Mended b s
  | _, [], _ => ⟨[], .nil⟩
  | 0, _ :: _, h => by simp at h
  | n + 1, x :: b, h => by
    simp only [List.length_cons] at h
    by_cases hx : ∃ c r, x :: b = String.utf8EncodeChar c ++ r
    · obtain ⟨c, r, he⟩ := hx
      have hl := congrArg List.length he
      have := c.utf8Size_pos
      rw [List.length_append, String.length_utf8EncodeChar, List.length_cons] at hl
      obtain ⟨s, hs⟩ := mended_exists n r (by omega)
      exact ⟨c :: s, he ▸ .char hs⟩
    · obtain ⟨s, hs⟩ := mended_exists n b (by omega)
      exact ⟨_, .bad hx hs⟩

theorem mended_unique {b : Bytes} {s : Str} (h : Mended b s) : ∀ {t}, Mended b t → s = t := by
  induction h with
  | nil =>
    intro t ht
    generalize hb : ([] : Bytes) = b at ht
    cases ht with
    | nil => rfl
    | @char c _ _ h =>
      have h0 := congrArg List.length hb
      have := c.utf8Size_pos
      simp at h0
      omega
    | bad => cases hb
  | @char c b s h ih =>
    intro t ht
    generalize hb : String.utf8EncodeChar c ++ b = b' at ht
    cases ht with
    | nil =>
      have h0 := congrArg List.length hb
      have := c.utf8Size_pos
      simp at h0
      omega
    | char h' =>
      obtain ⟨rfl, rfl⟩ := encode_inj hb
      rw [ih h']
    | bad hx _ => exact absurd ⟨c, b, hb.symm⟩ hx
  | @bad x b s hx h ih =>
    intro t ht
    generalize hb : x :: b = b' at ht
    cases ht with
    | nil => cases hb
    | char h' => exact absurd ⟨_, _, hb⟩ hx
    | bad _ h' => cases hb; rw [ih h']

theorem mended_utf8 : ∀ s, Mended (utf8 s) s
  | [] => .nil
  | c :: s => by rw [utf8_cons]; exact .char (mended_utf8 s)

/-- bytes without quotes and backslashes between quotes -/
theorem bRawString_plain {r : Bytes} (h : ∀ b ∈ r, bch b ≠ '"' ∧ bch b ≠ '\\') (rest : Bytes) :
    bRawString false (r ++ cbyte '"' :: rest) = some (r, rest) := by
  induction r with
  | nil => simp [bRawString, bch_cbyte (c := '"') (by decide)]
  | cons b r ih =>
    have hb := h b (by simp)
    rw [List.cons_append, bRawString, if_neg (fun h => hb.1 h.1)]
    simp only [hb.2, decide_false, Bool.false_and]
    rw [ih fun x hx => h x (by simp [hx])]

theorem bUnescape_plain : ∀ {r : Bytes}, (∀ b ∈ r, bch b ≠ '\\') → ∀ fuel, r.length < fuel → bUnescape fuel r = r
  | [], _, fuel + 1, _ => by simp [bUnescape]
  | b :: r, h, fuel + 1, hf => by
    rw [bUnescape_other _ (h b (by simp)), bUnescape_plain (fun x hx => h x (by simp [hx])) fuel (by simpa using hf)]

theorem bParseBytes_plain {r : Bytes} (h : ∀ b ∈ r, bch b ≠ '"' ∧ bch b ≠ '\\') :
    bParseBytes (cbyte '"' :: (r ++ [cbyte '"'])) = some (.str r) := by
  have hq : bch (cbyte '"') = '"' := bch_cbyte (by decide)
  have hw : bSkipWs (cbyte '"' :: (r ++ [cbyte '"'])) = cbyte '"' :: (r ++ [cbyte '"']) := by simp [bSkipWs, hq, isWs]
  unfold bParseBytes
  rw [hw, show maxDepth = 299 + 1 from rfl, bParseValue]
  simp only [hq, bRawString_plain h, bUnescapeStr]
  rw [bUnescape_plain (fun b hb => (h b hb).2) _ (by omega)]
  simp [bSkipWs]

end VJ
