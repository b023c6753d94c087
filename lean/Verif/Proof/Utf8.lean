import Verif.Spec.Bytes

/-! # UTF-8 -/

namespace VJ

theorem char_range (c : Char) : c.toNat < 0xD800 ∨ (0xDFFF < c.toNat ∧ c.toNat < 0x110000) := c.valid

theorem ofNat_valid {n : Nat} (h : n < 0xD800 ∨ (0xDFFF < n ∧ n < 0x110000)) : (Char.ofNat n).toNat = n := by
  rw [Char.ofNat, dif_pos (show n.isValidChar from h)]; rfl

theorem char_ext {c d : Char} (h : c.toNat = d.toNat) : c = d := by
  rw [← Char.ofNat_toNat c, h, Char.ofNat_toNat]

theorem u8_ofNat {n : Nat} (h : n < 256) : (UInt8.ofNat n).toNat = n := by
  simp [UInt8.toNat_ofNat', Nat.mod_eq_of_lt h]

theorem u8_ext {a b : UInt8} (h : a.toNat = b.toNat) : a = b := UInt8.toNat_inj.1 h

theorem encode_eq (c : Char) : String.utf8EncodeChar c = runeBytes c := by
  have h := char_range c
  have h0 : c.val.toNat = c.toNat := rfl
  unfold String.utf8EncodeChar runeBytes
  simp only [h0]
  by_cases h1 : c.toNat ≤ 0x7f
  · rw [if_pos h1, if_pos (by omega)]
  · rw [if_neg h1, if_neg (c := c.toNat < 128) (by omega)]
    by_cases h2 : c.toNat ≤ 0x7ff
    · rw [if_pos h2, if_pos (c := c.toNat < 2048) (by omega), show c.toNat / 64 % 32 + 192 = 192 + c.toNat / 64 by omega, Nat.add_comm 128]
    · rw [if_neg h2, if_neg (c := c.toNat < 2048) (by omega)]
      by_cases h3 : c.toNat ≤ 0xffff
      · rw [if_pos h3, if_pos (c := c.toNat < 65536) (by omega), show c.toNat / 4096 % 16 + 224 = 224 + c.toNat / 4096 by omega, Nat.add_comm 128, Nat.add_comm 128]
      · rw [if_neg h3, if_neg (c := c.toNat < 65536) (by omega), show c.toNat / 262144 % 8 + 240 = 240 + c.toNat / 262144 by omega, Nat.add_comm 128, Nat.add_comm 128, Nat.add_comm 128]

theorem bch_toNat (b : UInt8) : (bch b).toNat = b.toNat := by
  have := b.toNat_lt
  exact ofNat_valid (by omega)

theorem cbyte_toNat {c : Char} (h : c.toNat < 128) : (cbyte c).toNat = c.toNat := u8_ofNat (by omega)

theorem bch_cbyte {c : Char} (h : c.toNat < 128) : bch (cbyte c) = c := char_ext (by rw [bch_toNat, cbyte_toNat h])

theorem encode_ascii {c : Char} (h : c.toNat < 128) : String.utf8EncodeChar c = [cbyte c] := by
  rw [encode_eq, runeBytes]; simp only [if_pos (show c.toNat < 0x80 from h)]; rfl

/-- the bytes of a character that is not ASCII -/
theorem encode_high {c : Char} (h : ¬ c.toNat < 128) : String.utf8EncodeChar c ≠ [] ∧ ∀ b ∈ String.utf8EncodeChar c, 128 ≤ b.toNat := by
  have hc := char_range c
  rw [encode_eq, runeBytes]
  simp only [if_neg (show ¬ c.toNat < 0x80 from h)]
  split
  · refine ⟨by simp, fun b hb => ?_⟩
    simp only [List.mem_cons, List.not_mem_nil, or_false] at hb
    rcases hb with rfl | rfl <;> rw [u8_ofNat (by omega)] <;> omega
  · split
    · refine ⟨by simp, fun b hb => ?_⟩
      simp only [List.mem_cons, List.not_mem_nil, or_false] at hb
      rcases hb with rfl | rfl | rfl <;> rw [u8_ofNat (by omega)] <;> omega
    · refine ⟨by simp, fun b hb => ?_⟩
      simp only [List.mem_cons, List.not_mem_nil, or_false] at hb
      rcases hb with rfl | rfl | rfl | rfl <;> rw [u8_ofNat (by omega)] <;> omega

theorem between_iff {lo hi : Nat} {b : UInt8} : between lo hi b = true ↔ lo ≤ b.toNat ∧ b.toNat ≤ hi := by simp [between]

/-- decoding what was encoded -/
theorem decode_encode (c : Char) (r : Bytes) : decodeRune8 (String.utf8EncodeChar c ++ r) = some (c, (String.utf8EncodeChar c).length) := by
  have hc := char_range c
  rw [encode_eq, runeBytes]
  by_cases h1 : c.toNat < 0x80
  · simp only [if_pos h1, List.cons_append, List.nil_append, decodeRune8]
    rw [u8_ofNat (by omega), if_pos h1, Char.ofNat_toNat]; rfl
  · by_cases h2 : c.toNat < 0x800
    · simp only [if_neg h1, if_pos h2, List.cons_append, List.nil_append, decodeRune8]
      have e0 := u8_ofNat (n := 0xC0 + c.toNat / 64) (by omega)
      have e1 := u8_ofNat (n := 0x80 + c.toNat % 64) (by omega)
      have b1 : between 0x80 0xBF (UInt8.ofNat (0x80 + c.toNat % 64)) = true := between_iff.2 (by omega)
      rw [e0, if_neg (by omega), if_neg (by omega), if_pos (by omega), if_pos b1, e1,
        show (192 + c.toNat / 64 - 192) * 64 + (128 + c.toNat % 64 - 128) = c.toNat by omega, Char.ofNat_toNat]
      rfl
    · by_cases h3 : c.toNat < 0x10000
      · simp only [if_neg h1, if_neg h2, if_pos h3, List.cons_append, List.nil_append, decodeRune8]
        have e0 := u8_ofNat (n := 0xE0 + c.toNat / 4096) (by omega)
        have e1 := u8_ofNat (n := 0x80 + c.toNat / 64 % 64) (by omega)
        have e2 := u8_ofNat (n := 0x80 + c.toNat % 64) (by omega)
        have b1 : (between (if 0xE0 + c.toNat / 4096 = 0xE0 then 0xA0 else 0x80) (if 0xE0 + c.toNat / 4096 = 0xED then 0x9F else 0xBF)
            (UInt8.ofNat (0x80 + c.toNat / 64 % 64)) && between 0x80 0xBF (UInt8.ofNat (0x80 + c.toNat % 64))) = true := by
          rw [Bool.and_eq_true, between_iff, between_iff]
          refine ⟨⟨?_, ?_⟩, by omega⟩ <;> split <;> omega
        rw [e0, if_neg (by omega), if_neg (by omega), if_neg (by omega), if_pos (by omega), if_pos b1, e1, e2,
          show (224 + c.toNat / 4096 - 224) * 4096 + (128 + c.toNat / 64 % 64 - 128) * 64 + (128 + c.toNat % 64 - 128) = c.toNat by omega,
          Char.ofNat_toNat]
        rfl
      · simp only [if_neg h1, if_neg h2, if_neg h3, List.cons_append, List.nil_append, decodeRune8]
        have e0 := u8_ofNat (n := 0xF0 + c.toNat / 262144) (by omega)
        have e1 := u8_ofNat (n := 0x80 + c.toNat / 4096 % 64) (by omega)
        have e2 := u8_ofNat (n := 0x80 + c.toNat / 64 % 64) (by omega)
        have e3 := u8_ofNat (n := 0x80 + c.toNat % 64) (by omega)
        have b1 : (between (if 0xF0 + c.toNat / 262144 = 0xF0 then 0x90 else 0x80) (if 0xF0 + c.toNat / 262144 = 0xF4 then 0x8F else 0xBF)
            (UInt8.ofNat (0x80 + c.toNat / 4096 % 64)) && between 0x80 0xBF (UInt8.ofNat (0x80 + c.toNat / 64 % 64)) &&
            between 0x80 0xBF (UInt8.ofNat (0x80 + c.toNat % 64))) = true := by
          rw [Bool.and_eq_true, Bool.and_eq_true, between_iff, between_iff, between_iff]
          refine ⟨⟨⟨?_, ?_⟩, by omega⟩, by omega⟩ <;> split <;> omega
        rw [e0, if_neg (by omega), if_neg (by omega), if_neg (by omega), if_neg (by omega), if_pos (by omega), if_pos b1, e1, e2, e3,
          show (240 + c.toNat / 262144 - 240) * 262144 + (128 + c.toNat / 4096 % 64 - 128) * 4096 + (128 + c.toNat / 64 % 64 - 128) * 64 +
          (128 + c.toNat % 64 - 128) = c.toNat by omega, Char.ofNat_toNat]
        rfl

/-- … and what is decoded begins with the encoding of the result -/
theorem decode_some {b : Bytes} {c : Char} {w : Nat} (h : decodeRune8 b = some (c, w)) :
    b = String.utf8EncodeChar c ++ b.drop w ∧ w = (String.utf8EncodeChar c).length := by
  cases b with
  | nil => cases h
  | cons b bs =>
    have hb := b.toNat_lt
    rw [encode_eq]
    simp only [decodeRune8] at h
    by_cases h1 : b.toNat < 0x80
    · rw [if_pos h1] at h
      cases h
      have hv : (Char.ofNat b.toNat).toNat = b.toNat := ofNat_valid (by omega)
      simp only [runeBytes, hv, if_pos h1]
      exact ⟨by simp, rfl⟩
    · rw [if_neg h1] at h
      by_cases h2 : b.toNat < 0xC2
      · rw [if_pos h2] at h; cases h
      · rw [if_neg h2] at h
        by_cases h3 : b.toNat < 0xE0
        · rw [if_pos h3] at h
          cases bs with
          | nil => cases h
          | cons x r =>
            simp only at h
            split at h
            · rename_i hx
              rw [between_iff] at hx
              obtain ⟨hc, hw⟩ := Prod.mk.inj (Option.some.inj h)
              subst hc hw
              have hv := ofNat_valid (n := (b.toNat - 0xC0) * 64 + (x.toNat - 0x80)) (by omega)
              simp only [runeBytes, hv]
              rw [if_neg (by omega), if_pos (by omega)]
              refine ⟨?_, rfl⟩
              simp only [List.drop_succ_cons, List.drop_zero, List.cons_append, List.nil_append]
              exact List.cons_eq_cons.2 ⟨u8_ext (by rw [u8_ofNat (by omega)]; omega), List.cons_eq_cons.2 ⟨u8_ext (by rw [u8_ofNat (by omega)]; omega), rfl⟩⟩
            · cases h
        · rw [if_neg h3] at h
          by_cases h4 : b.toNat < 0xF0
          · rw [if_pos h4] at h
            match bs with
            | [] => cases h
            | [x] => cases h
            | x :: y :: r =>
              simp only at h
              by_cases hx : (between (if b.toNat = 0xE0 then 0xA0 else 0x80) (if b.toNat = 0xED then 0x9F else 0xBF) x && between 0x80 0xBF y) = true
              · rw [if_pos hx] at h
                rw [Bool.and_eq_true, between_iff, between_iff] at hx
                obtain ⟨hc, hw⟩ := Prod.mk.inj (Option.some.inj h)
                subst hc hw
                have hx1 : 0x80 ≤ x.toNat ∧ x.toNat ≤ 0xBF ∧ (b.toNat = 0xE0 → 0xA0 ≤ x.toNat) ∧ (b.toNat = 0xED → x.toNat ≤ 0x9F) := by
                  obtain ⟨⟨ha, hb⟩, -⟩ := hx
                  split at ha <;> split at hb <;> omega
                have hy := hx.2
                have hv := ofNat_valid (n := (b.toNat - 0xE0) * 4096 + (x.toNat - 0x80) * 64 + (y.toNat - 0x80)) (by omega)
                simp only [runeBytes, hv]
                rw [if_neg (by omega), if_neg (by omega), if_pos (by omega)]
                refine ⟨?_, rfl⟩
                simp only [List.drop_succ_cons, List.drop_zero, List.cons_append, List.nil_append]
                exact List.cons_eq_cons.2 ⟨u8_ext (by rw [u8_ofNat (by omega)]; omega), List.cons_eq_cons.2 ⟨u8_ext (by rw [u8_ofNat (by omega)]; omega), List.cons_eq_cons.2 ⟨u8_ext (by rw [u8_ofNat (by omega)]; omega), rfl⟩⟩⟩
              · rw [if_neg hx] at h; cases h
          · rw [if_neg h4] at h
            by_cases h5 : b.toNat < 0xF5
            · rw [if_pos h5] at h
              match bs with
              | [] => cases h
              | [x] => cases h
              | [x, y] => cases h
              | x :: y :: z :: r =>
                simp only at h
                by_cases hx : (between (if b.toNat = 0xF0 then 0x90 else 0x80) (if b.toNat = 0xF4 then 0x8F else 0xBF) x && between 0x80 0xBF y &&
                  between 0x80 0xBF z) = true
                · rw [if_pos hx] at h
                  rw [Bool.and_eq_true, Bool.and_eq_true, between_iff, between_iff, between_iff] at hx
                  obtain ⟨hc, hw⟩ := Prod.mk.inj (Option.some.inj h)
                  subst hc hw
                  have hx1 : 0x80 ≤ x.toNat ∧ x.toNat ≤ 0xBF ∧ (b.toNat = 0xF0 → 0x90 ≤ x.toNat) ∧ (b.toNat = 0xF4 → x.toNat ≤ 0x8F) := by
                    obtain ⟨⟨⟨ha, hb⟩, -⟩, -⟩ := hx
                    split at ha <;> split at hb <;> omega
                  have hy := hx.1.2
                  have hz := hx.2
                  have hv := ofNat_valid (n := (b.toNat - 0xF0) * 262144 + (x.toNat - 0x80) * 4096 + (y.toNat - 0x80) * 64 + (z.toNat - 0x80)) (by omega)
                  simp only [runeBytes, hv]
                  rw [if_neg (by omega), if_neg (by omega), if_neg (by omega)]
                  refine ⟨?_, rfl⟩
                  simp only [List.drop_succ_cons, List.drop_zero, List.cons_append, List.nil_append]
                  exact List.cons_eq_cons.2 ⟨u8_ext (by rw [u8_ofNat (by omega)]; omega), List.cons_eq_cons.2 ⟨u8_ext (by rw [u8_ofNat (by omega)]; omega), List.cons_eq_cons.2 ⟨u8_ext (by rw [u8_ofNat (by omega)]; omega), List.cons_eq_cons.2 ⟨u8_ext (by rw [u8_ofNat (by omega)]; omega), rfl⟩⟩⟩⟩
                · rw [if_neg hx] at h; cases h
            · rw [if_neg h5] at h; cases h

theorem decode_none {b : Bytes} : decodeRune8 b = none ↔ ¬ ∃ c r, b = String.utf8EncodeChar c ++ r := by
  constructor
  · rintro h ⟨c, r, rfl⟩
    rw [decode_encode] at h; cases h
  · intro h
    cases hd : decodeRune8 b with
    | none => rfl
    | some p => exact absurd ⟨p.1, _, (decode_some hd).1⟩ h

/-- a character and the rest are determined by the bytes -/
theorem encode_inj {c d : Char} {r t : Bytes} (h : String.utf8EncodeChar c ++ r = String.utf8EncodeChar d ++ t) : c = d ∧ r = t := by
  have h1 := decode_encode c r
  rw [h, decode_encode d t] at h1
  cases h1
  exact ⟨rfl, List.append_cancel_left h⟩

theorem utf8_nil : utf8 [] = [] := rfl
theorem utf8_cons (c : Char) (s : Str) : utf8 (c :: s) = String.utf8EncodeChar c ++ utf8 s := by simp [utf8]
theorem utf8_append (s t : Str) : utf8 (s ++ t) = utf8 s ++ utf8 t := by simp [utf8]
theorem utf8_ascii {c : Char} (h : c.toNat < 128) (s : Str) : utf8 (c :: s) = cbyte c :: utf8 s := by rw [utf8_cons, encode_ascii h]; rfl

theorem utf8_inj : ∀ {s t : Str}, utf8 s = utf8 t → s = t
  | [], [], _ => rfl
  | [], c :: t, h => by
    rw [utf8_cons] at h
    have := congrArg List.length h
    have := c.utf8Size_pos
    simp [utf8] at *
  | c :: s, [], h => by
    rw [utf8_cons] at h
    have := congrArg List.length h
    have := c.utf8Size_pos
    simp [utf8] at *
  | c :: s, d :: t, h => by
    rw [utf8_cons, utf8_cons] at h
    obtain ⟨rfl, h'⟩ := encode_inj h
    rw [utf8_inj h']

theorem lit_utf8 {s : Str} (h : ∀ c ∈ s, c.toNat < 128) : lit s = utf8 s := by
  induction s with
  | nil => rfl
  | cons c s ih =>
    rw [utf8_ascii (h c (by simp)), ← ih fun d hd => h d (by simp [hd])]
    rfl

end VJ
