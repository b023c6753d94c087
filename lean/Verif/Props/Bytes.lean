import Verif.Proof.BytesMend
import Verif.Proof.ParseJson

/-!
# C64: texts as bytes

Go strings and JSON texts are bytes.  The other theorems are about characters; here is why this is
enough for texts in UTF-8, and what happens to other bytes.
-/

namespace VJ

/-- **C64** A JSON text in UTF-8 is parsed as the text: the same documents are refused, and of the others
the keys, strings and numbers are the bytes of those the model of the parser finds. -/
theorem C64_parse (s : Str) : bParseBytes (utf8 s) = (parseBytes s).map JV.utf8 := bParseBytes_utf8 s

/-- **C64** A string in UTF-8 is written as the string. -/
theorem C64_write (s : Str) : bJsonStr (utf8 s) = utf8 (jsonStr s) := bJsonStr_utf8 s

/-- **C64** Different texts have different bytes. -/
theorem C64_injective {s t : Str} (h : utf8 s = utf8 t) : s = t := utf8_inj h

/-- **C64** Every sequence of bytes can be mended in exactly one way, … -/
theorem C64_mended (b : Bytes) : ∃ s, Mended b s ∧ ∀ t, Mended b t → t = s := by
  obtain ⟨s, hs⟩ := mended_exists b.length b (Nat.le_refl _)
  exact ⟨s, hs, fun t ht => (mended_unique hs ht).symm⟩

/-- **C64** … and the mended text is what is read back after the bytes have been written; what is
written is a JSON string in UTF-8, whatever the bytes. -/
theorem C64_read_back {b : Bytes} {s : Str} (h : Mended b s) : bParseBytes (bJsonStr b) = some (.str (utf8 s)) ∧
    ∃ t, bJsonStr b = utf8 t ∧ Json (.str s) t := by
  obtain ⟨body, h1, h2⟩ := bEsc_mended h (b.length + 1) (by omega)
  have he : bJsonStr b = utf8 ('"' :: (body ++ ['"'])) := by
    rw [bJsonStr, h1, lit_utf8 (by decide), ← utf8_append, ← utf8_append]
    rfl
  have hj : Json (.str s) ('"' :: (body ++ ['"'])) := .str h2
  refine ⟨?_, _, he, hj⟩
  rw [he, bParseBytes_utf8, parseBytes_document ⟨[], _, [], by simp, by simp [Ws], by simp [Ws], hj⟩ (.str _ s)]
  rfl

/-- **C64** So a string survives being written and read exactly if it is UTF-8. -/
theorem C64_survives (b : Bytes) : bParseBytes (bJsonStr b) = some (.str b) ↔ ValidUtf8 b := by
  obtain ⟨s, hs, -⟩ := C64_mended b
  rw [(C64_read_back hs).1]
  constructor
  · intro h
    cases h
    exact ⟨s, rfl⟩
  · rintro ⟨t, rfl⟩
    rw [mended_unique hs (mended_utf8 t)]

/-- **C64** Any bytes are accepted as a document exactly if the mended text is, and the document is the same
except that its texts are not mended. -/
theorem C64_any_text {b : Bytes} {s : Str} (h : Mended b s) :
    (bParseBytes b = none ↔ parseBytes s = none) ∧ ∀ v, bParseBytes b = some v → ∃ w, parseBytes s = some w ∧ MendedV v w := by
  have := parseBytes_mend b
  rw [mend_eq h] at this
  rw [this]
  exact ⟨by simp, fun v hv => ⟨v.mend, by rw [hv]; rfl, mendedV v⟩⟩

/-- **C64** Bytes that are not UTF-8 are accepted inside string literals, and kept as they are. -/
theorem C64_accepted {r : Bytes} (h : ∀ b ∈ r, b ≠ cbyte '"' ∧ b ≠ cbyte '\\') :
    bParseBytes (cbyte '"' :: (r ++ [cbyte '"'])) = some (.str r) := by
  refine bParseBytes_plain fun b hb => ⟨fun e => (h b hb).1 ?_, fun e => (h b hb).2 ?_⟩
  · exact u8_ext (by rw [← bch_toNat, e, cbyte_toNat (by decide)])
  · exact u8_ext (by rw [← bch_toNat, e, cbyte_toNat (by decide)])

namespace Examples

/-- `é` in Latin-1 is one byte, which is not UTF-8: it is read, and comes back as U+FFFD. -/
theorem C64_latin1 : bParseBytes [0x22, 0xE9, 0x22] = some (.str [0xE9]) ∧ ¬ ValidUtf8 [0xE9] ∧
    bParseBytes (bJsonStr [0xE9]) = some (.str [0xEF, 0xBF, 0xBD]) := by
  have hm : Mended [0xE9] [Char.ofNat 0xFFFD] := .bad (decode_none.1 (by decide)) .nil
  have hr := (C64_read_back hm).1
  refine ⟨C64_accepted (r := [0xE9]) (by decide), fun hv => ?_, hr⟩
  have := (C64_survives _).2 hv
  rw [hr] at this
  cases this

/-- `C64_parse`, `C64_write` and `C64_survives` at work: a key and a string with characters of one to four
bytes and escapes. -/
example : (match bParseBytes (utf8 (str "{\"é\": \"€𝄞\\u00e9\\ud834\\udd1e\"}")) with
    | some (.obj [(k, .str s)]) => k = utf8 (str "é") && s = utf8 (str "€𝄞é𝄞")
    | _ => false) = true := by decide +kernel
example : bJsonStr (utf8 (str "<é€𝄞>\n")) = utf8 (str "\"\\u003cé€𝄞\\u003e\\n\"") := by rw [C64_write]; decide +kernel
example : bParseBytes (bJsonStr (utf8 (str "é€𝄞"))) = some (.str (utf8 (str "é€𝄞"))) := (C64_survives _).2 ⟨_, rfl⟩

/-- `C64_any_text`: a document with a byte that is not UTF-8 in a string, and one with such a byte elsewhere. -/
example : (bParseBytes [0x22, 0xE9, 0x22]).isSome = true ∧ bParseBytes [0x31, 0xE9] = none ∧
    Mended [0x31, 0xE9] ['1', Char.ofNat 0xFFFD] := by
  have hm : Mended [0xE9] [Char.ofNat 0xFFFD] := .bad (decode_none.1 (by decide)) .nil
  have h1 : String.utf8EncodeChar '1' = [0x31] := by decide
  have hm' : Mended [0x31, 0xE9] ['1', Char.ofNat 0xFFFD] := by have := Mended.char (c := '1') hm; rwa [h1] at this
  refine ⟨by rw [C64_latin1.1]; rfl, ?_, hm'⟩
  rw [(C64_any_text hm').1]
  rfl

end Examples

end VJ
