import Verif.Proof.Parser
import Verif.Proof.Tokens

/-!
# Every JSON text parses to the value it denotes
-/

namespace VJ
set_option linter.unusedSimpArgs false

/-! ## Characters and strings -/

theorem hexDigit_val {c : Char} {n : Nat} (h : HexDigit c n) : hexVal c = some n ∧ n < 16 ∧ c ≠ '"' ∧ c ≠ '\\' := by
  cases h with
  | digit h =>
    have : ∀ d < 10, hexVal (Char.ofNat (48 + d)) = some d ∧ d < 16 ∧ Char.ofNat (48 + d) ≠ '"' ∧ Char.ofNat (48 + d) ≠ '\\' := by decide
    exact this n h
  | lower h =>
    rename_i d
    have : ∀ d < 6, hexVal (Char.ofNat (97 + d)) = some (10 + d) ∧ 10 + d < 16 ∧ Char.ofNat (97 + d) ≠ '"' ∧ Char.ofNat (97 + d) ≠ '\\' := by decide
    exact this d h
  | upper h =>
    rename_i d
    have : ∀ d < 6, hexVal (Char.ofNat (65 + d)) = some (10 + d) ∧ 10 + d < 16 ∧ Char.ofNat (65 + d) ≠ '"' ∧ Char.ofNat (65 + d) ≠ '\\' := by decide
    exact this d h

theorem hex4_val {s : Str} {n : Nat} (h : Hex4 s n) :
    ∃ a b c d, s = [a, b, c, d] ∧ hex4 a b c d = some n ∧ (∀ x ∈ s, x ≠ '"' ∧ x ≠ '\\') := by
  cases h with
  | mk ha hb hc hd =>
    obtain ⟨h1, _, h1'⟩ := hexDigit_val ha
    obtain ⟨h2, _, h2'⟩ := hexDigit_val hb
    obtain ⟨h3, _, h3'⟩ := hexDigit_val hc
    obtain ⟨h4, _, h4'⟩ := hexDigit_val hd
    refine ⟨_, _, _, _, rfl, by simp [hex4, h1, h2, h3, h4], ?_⟩
    intro x hx
    simp at hx
    rcases hx with rfl | rfl | rfl | rfl <;> assumption

/-- characters that are neither quote nor backslash are copied -/
theorem rawString_plain : ∀ (s rest : Str), (∀ c ∈ s, c ≠ '"' ∧ c ≠ '\\') →
    rawString false (s ++ rest) = (rawString false rest).map fun p => (s ++ p.1, p.2)
  | [], rest, _ => by
    simp only [List.nil_append]
    cases rawString false rest <;> rfl
  | c :: cs, rest, h => by
    have hc := h c (by simp)
    simp only [List.cons_append, rawString]
    rw [if_neg (by simp [hc.1])]
    have : (decide (c = '\\') && !false) = false := by simp [hc.2]
    rw [this, rawString_plain cs rest (fun c' h' => h c' (by simp [h']))]
    cases rawString false rest <;> rfl

theorem rawString_esc (e : Char) (s rest : Str) (hs : ∀ c ∈ s, c ≠ '"' ∧ c ≠ '\\') :
    rawString false ('\\' :: e :: s ++ rest) = (rawString false rest).map fun p => ('\\' :: e :: s ++ p.1, p.2) := by
  simp only [List.cons_append, rawString]
  rw [if_neg (by simp)]
  simp only [decide_true, Bool.not_false, Bool.and_true]
  rw [if_neg (by simp)]
  simp only [Bool.not_true, Bool.and_false]
  rw [rawString_plain s rest hs]
  cases rawString false rest <;> rfl

theorem rawString_char {c : Char} {t : Str} (h : CharText c t) (rest : Str) :
    rawString false (t ++ rest) = (rawString false rest).map fun p => (t ++ p.1, p.2) := by
  cases h with
  | raw h hq hb => exact rawString_plain [c] rest (by simp [hq, hb])
  | quote => exact rawString_esc _ [] rest (by simp)
  | backslash => exact rawString_esc _ [] rest (by simp)
  | slash => exact rawString_esc _ [] rest (by simp)
  | b => exact rawString_esc _ [] rest (by simp)
  | f => exact rawString_esc _ [] rest (by simp)
  | n => exact rawString_esc _ [] rest (by simp)
  | r => exact rawString_esc _ [] rest (by simp)
  | t => exact rawString_esc _ [] rest (by simp)
  | u hh =>
    obtain ⟨_, _, _, _, _, _, hs⟩ := hex4_val hh
    exact rawString_esc _ _ rest hs
  | @pair _ h l _ _ hh hl =>
    obtain ⟨_, _, _, _, _, _, hs⟩ := hex4_val hh
    obtain ⟨_, _, _, _, _, _, hs'⟩ := hex4_val hl
    have h1 := rawString_esc 'u' h ('\\' :: 'u' :: l ++ rest) hs
    rw [rawString_esc 'u' l rest hs'] at h1
    simp only [List.cons_append, List.append_assoc] at h1 ⊢
    rw [h1]
    cases rawString false rest <;> simp

theorem rawString_text {s t : Str} (h : StrText s t) (rest : Str) : rawString false (t ++ '"' :: rest) = some (t, rest) := by
  induction h with
  | nil => simp [rawString]
  | cons hc _ ih => rw [List.append_assoc, rawString_char hc, ih]; rfl

theorem isSurrogate_char (c : Char) : isSurrogate c.toNat = false := by
  have h := c.valid
  simp only [isSurrogate, Bool.and_eq_false_imp, decide_eq_true_eq, decide_eq_false_iff_not]
  have : c.toNat = c.val.toNat := rfl
  simp only [UInt32.isValidChar, Nat.isValidChar] at h
  omega

theorem unescape_char {c : Char} {t : Str} (h : CharText c t) (u : Str) {fuel : Nat} (hf : (t ++ u).length < fuel) :
    ∃ fuel', u.length < fuel' ∧ unescape fuel (t ++ u) = c :: unescape fuel' u := by
  cases fuel with
  | zero => omega
  | succ fuel =>
    cases h with
    | raw h hq hb => exact ⟨fuel, by simp at hf; omega, by simp [unescape, hb]⟩
    | quote | backslash | slash | b | f | n | r | t =>
      exact ⟨fuel, by simp at hf; omega, by simp [unescape, simpleEsc]⟩
    | u hh =>
      obtain ⟨a, b, c', d, rfl, hv, _⟩ := hex4_val hh
      refine ⟨fuel, by simp at hf; omega, ?_⟩
      simp only [List.cons_append, List.nil_append, unescape, hv, isSurrogate_char]
      simp [Char.ofNat_toNat]
    | @pair _ h l hi lo hh hl h1 h2 hc =>
      obtain ⟨a, b, c', d, rfl, hv, _⟩ := hex4_val hh
      obtain ⟨a', b', c'', d', rfl, hv', _⟩ := hex4_val hl
      refine ⟨fuel, by simp at hf; omega, ?_⟩
      have hsur : isSurrogate (0xD800 + hi) = true := by simp [isSurrogate]; omega
      have hdec : decodeRune (0xD800 + hi) (0xDC00 + lo) = c := by
        unfold decodeRune
        rw [if_pos (by omega)]
        rw [show (0xD800 + hi - 0xD800) * 1024 + (0xDC00 + lo - 0xDC00) + 0x10000 = c.toNat by rw [hc]; omega]
        exact Char.ofNat_toNat c
      simp only [List.cons_append, List.nil_append, unescape, hv, hsur, hv', hdec]
      simp

theorem unescape_text {s t : Str} (h : StrText s t) : ∀ {fuel : Nat}, t.length < fuel → unescape fuel t = s := by
  induction h with
  | nil => intro fuel h; cases fuel with
    | zero => omega
    | succ f => rfl
  | cons hc _ ih =>
    intro fuel hf
    obtain ⟨f', h1, h2⟩ := unescape_char hc _ hf
    rw [h2, ih h1]

theorem unescapeStr_text {s t : Str} (h : StrText s t) : unescapeStr t = s := unescape_text h (by omega)

/-! ## Numbers -/

/-- the text cannot continue a number -/
def NumEnd (s : Str) : Prop := ∀ c, s.head? = some c → isNumChar c = false

theorem spanNum_all : ∀ (s rest : Str), (∀ c ∈ s, isNumChar c = true) → NumEnd rest → spanNum (s ++ rest) = (s, rest)
  | [], [], _, _ => rfl
  | [], c :: cs, _, h => by simp [spanNum, h c rfl]
  | c :: cs, rest, h, hr => by
    simp only [List.cons_append, spanNum, h c (by simp), if_true, spanNum_all cs rest (fun c' h' => h c' (by simp [h'])) hr]

theorem digits_num {s : Str} (h : Digits s) : ∀ c ∈ s, isNumChar c = true := by
  intro c hc
  obtain ⟨d, hd, rfl⟩ := h.2 c hc
  have := isDigit_digitChar hd
  simp only [digitChar] at this
  simp [isNumChar, this]

theorem isDigit_ofNat {d : Nat} (hd : d < 10) : isDigit (Char.ofNat (48 + d)) = true := by
  have := isDigit_digitChar hd
  simpa [digitChar] using this

/-- the first characters of a number -/
theorem numText_head {raw : Str} (h : NumText raw) :
    (∀ c ∈ raw, isNumChar c = true) ∧ ∃ c cs, raw = c :: cs ∧ (isDigit c = true ∨ (c = '-' ∧ cs ≠ [])) := by
  cases h with
  | @mk sign int frac exp hs hi hf he =>
    have h1 : ∀ c ∈ sign, isNumChar c = true := by
      rcases hs with rfl | rfl <;> simp [isNumChar]
    have h2 : ∀ c ∈ int, isNumChar c = true := by
      rcases hi with rfl | ⟨h, _⟩
      · simp [isNumChar, isDigit]
      · exact digits_num h
    have h3 : ∀ c ∈ frac, isNumChar c = true := by
      rcases hf with rfl | ⟨ds, rfl, h⟩
      · simp
      · intro c hc
        simp at hc
        rcases hc with rfl | hc
        · simp [isNumChar]
        · exact digits_num h c hc
    have h4 : ∀ c ∈ exp, isNumChar c = true := by
      rcases he with rfl | ⟨e, sg, ds, rfl, he, hsg, h⟩
      · simp
      · intro c hc
        simp at hc
        rcases hc with rfl | hc | hc
        · rcases he with rfl | rfl <;> simp [isNumChar]
        · rcases hsg with rfl | rfl | rfl <;> simp at hc <;> subst hc <;> simp [isNumChar]
        · exact digits_num h c hc
    refine ⟨?_, ?_⟩
    · intro c hc
      simp only [List.mem_append] at hc
      rcases hc with ((hc | hc) | hc) | hc
      · exact h1 c hc
      · exact h2 c hc
      · exact h3 c hc
      · exact h4 c hc
    · obtain ⟨i, is, hint, hd⟩ : ∃ i is, int = i :: is ∧ isDigit i = true := by
        rcases hi with rfl | ⟨h, _⟩
        · exact ⟨'0', [], rfl, by decide⟩
        · obtain ⟨h0, hds⟩ := h
          cases int with
          | nil => exact absurd rfl h0
          | cons i is =>
            obtain ⟨d, hd, hdd⟩ := hds i (by simp)
            exact ⟨i, is, rfl, by rw [hdd]; exact isDigit_ofNat hd⟩
      subst hint
      rcases hs with rfl | rfl
      · exact ⟨i, is ++ frac ++ exp, by simp, Or.inl hd⟩
      · exact ⟨'-', i :: is ++ frac ++ exp, by simp, Or.inr ⟨rfl, by simp⟩⟩

theorem rawNumber_text {raw : Str} (h : NumText raw) {rest : Str} (hr : NumEnd rest) : rawNumber (raw ++ rest) = some (raw, rest) := by
  obtain ⟨hall, c, cs, rfl, hc⟩ := numText_head h
  unfold rawNumber
  rw [spanNum_all _ _ hall hr]
  cases rest with
  | nil => rfl
  | cons r rs =>
    simp only
    rw [if_neg]
    rintro (h | h | h)
    · cases h
    · rcases hc with hc | ⟨_, hc⟩
      · cases h; simp [isDigit] at hc
      · cases h; exact hc rfl
    · rcases hc with hc | ⟨hc, _⟩
      · cases h; simp [isDigit] at hc
      · cases h; cases hc

/-! ## Whitespace -/

theorem isWs_iff {c : Char} : isWs c = true ↔ c = ' ' ∨ c = '\t' ∨ c = '\n' ∨ c = '\r' := by
  simp only [isWs, Bool.or_eq_true, decide_eq_true_eq]
  constructor
  · rintro (((h | h) | h) | h)
    · exact Or.inl h
    · exact Or.inr (Or.inr (Or.inl h))
    · exact Or.inr (Or.inl h)
    · exact Or.inr (Or.inr (Or.inr h))
  · rintro (h | h | h | h)
    · exact Or.inl (Or.inl (Or.inl h))
    · exact Or.inl (Or.inr h)
    · exact Or.inl (Or.inl (Or.inr h))
    · exact Or.inr h

theorem skipWs_append : ∀ {ws : Str} (rest : Str), Ws ws → skipWs (ws ++ rest) = skipWs rest
  | [], _, _ => rfl
  | c :: cs, rest, h => by
    simp only [List.cons_append, skipWs]
    rw [if_pos (isWs_iff.2 (h c (by simp)))]
    exact skipWs_append rest (fun c' h' => h c' (by simp [h']))

theorem skipWs_cons {c : Char} {cs : Str} (h : isWs c = false) : skipWs (c :: cs) = c :: cs := by
  simp [skipWs, h]

theorem skipWs_ws {ws : Str} (h : Ws ws) : skipWs ws = [] := by
  have := skipWs_append [] h
  rw [List.append_nil] at this
  exact this

/-- the text begins like a value -/
def TokenHead (b : Str) : Prop := ∃ c cs, b = c :: cs ∧ isWs c = false ∧ c ≠ ']' ∧ c ≠ '}'

/-- the text between two quotes is read as the string -/
def KeyReads (s t : Str) : Prop := (∀ rest, rawString false (t ++ '"' :: rest) = some (t, rest)) ∧ unescapeStr t = s

theorem keyReads_text {s t : Str} (h : StrText s t) : KeyReads s t := ⟨rawString_text h, unescapeStr_text h⟩

/-- the first character of a JSON value -/
theorem json_head {v : JV} {b : Str} (h : Json v b) : TokenHead b := by
  cases h with
  | null => exact ⟨_, _, rfl, by decide, by decide, by decide⟩
  | true => exact ⟨_, _, rfl, by decide, by decide, by decide⟩
  | false => exact ⟨_, _, rfl, by decide, by decide, by decide⟩
  | str => exact ⟨_, _, rfl, by decide, by decide, by decide⟩
  | arr0 => exact ⟨_, _, rfl, by decide, by decide, by decide⟩
  | arr => exact ⟨_, _, rfl, by decide, by decide, by decide⟩
  | obj0 => exact ⟨_, _, rfl, by decide, by decide, by decide⟩
  | obj => exact ⟨_, _, rfl, by decide, by decide, by decide⟩
  | num h =>
    obtain ⟨_, c, cs, rfl, hc⟩ := numText_head h
    refine ⟨c, cs, rfl, ?_⟩
    rcases hc with hc | ⟨rfl, _⟩
    · refine ⟨?_, ?_, ?_⟩
      · cases hw : isWs c with
        | false => rfl
        | true => rcases isWs_iff.1 hw with rfl | rfl | rfl | rfl <;> simp [isDigit] at hc
      · rintro rfl; simp [isDigit] at hc
      · rintro rfl; simp [isDigit] at hc
    · exact ⟨by decide, by decide, by decide⟩

/-! ## Values -/

/-- from some fuel on, the text is read as the value -/
def Parses (d : Nat) (b : Str) (v : JV) : Prop :=
  ∀ rest, NumEnd rest → ∃ K, ∀ f ≥ K, parseValue f d (b ++ rest) = .ok (v, rest)

theorem numEnd_ws {ws rest : Str} (h : Ws ws) (hr : ∀ c, rest.head? = some c → isNumChar c = false) : NumEnd (ws ++ rest) := by
  intro c hc
  cases ws with
  | nil => exact hr c hc
  | cons w ws =>
    simp at hc
    subst hc
    rcases h w (by simp) with rfl | rfl | rfl | rfl <;> decide

theorem numEnd_cons {c : Char} {rest : Str} (h : isNumChar c = false) : NumEnd (c :: rest) := by
  intro c' hc; simp at hc; subst hc; exact h

/-- elements followed by the closing bracket -/
theorem parseElems_text {d : Nat} : ∀ {l : List JV} {ps : List ElemText}, l ≠ [] → ps.length = l.length → (∀ p ∈ ps, p.ws) →
    (∀ (i : Nat) (v : JV) (p : ElemText), l[i]? = some v → ps[i]? = some p → TokenHead p.body ∧ Parses d p.body v) →
    ∀ rest, ∃ K, ∀ f ≥ K, parseElems f d (joinComma (ps.map ElemText.text) ++ ']' :: rest) = .ok (l, rest) := by
  intro l
  induction l with
  | nil => intro ps h; exact absurd rfl h
  | cons v l ih =>
    intro ps _ hlen hw h rest
    match ps, hlen with
    | p :: ps, hlen =>
      obtain ⟨hj, hp⟩ := h 0 v p rfl rfl
      obtain ⟨hpre, hpost⟩ := hw p (by simp)
      obtain ⟨c, cs, hb, hc, _, _⟩ := hj
      cases l with
      | nil =>
        have : ps = [] := List.length_eq_zero_iff.1 (by simpa using hlen)
        subst this
        obtain ⟨K, hK⟩ := hp (p.post ++ ']' :: rest) (numEnd_ws hpost (by intro c h; simp at h; subst h; decide))
        refine ⟨K + 1, fun f hf => ?_⟩
        obtain ⟨f, rfl⟩ : ∃ f', f = f' + 1 := ⟨f - 1, by omega⟩
        have e1 : skipWs (joinComma (List.map ElemText.text [p]) ++ ']' :: rest) = p.body ++ (p.post ++ ']' :: rest) := by
          simp only [List.map, joinComma, ElemText.text, List.append_assoc]
          rw [skipWs_append _ hpre, hb]
          exact skipWs_cons hc
        have e2 : skipWs (p.post ++ ']' :: rest) = ']' :: rest := by
          rw [skipWs_append _ hpost]
          exact skipWs_cons (by decide)
        simp only [parseElems, e1, hK f (by omega), e2]
      | cons v' l =>
        match ps, hlen with
        | p' :: ps, hlen =>
          obtain ⟨K2, hK2⟩ := ih (ps := p' :: ps) (by simp) (by simpa using hlen) (fun q hq => hw q (by simp [List.mem_cons.1 hq]))
            (fun i v q hv hq => h (i + 1) v q (by simpa using hv) (by simpa using hq)) rest
          obtain ⟨K, hK⟩ := hp (p.post ++ ',' :: (joinComma ((p' :: ps).map ElemText.text) ++ ']' :: rest))
            (numEnd_ws hpost (by intro c h; simp at h; subst h; decide))
          refine ⟨max K K2 + 1, fun f hf => ?_⟩
          obtain ⟨f, rfl⟩ : ∃ f', f = f' + 1 := ⟨f - 1, by omega⟩
          have e1 : skipWs (joinComma (List.map ElemText.text (p :: p' :: ps)) ++ ']' :: rest) =
              p.body ++ (p.post ++ ',' :: (joinComma ((p' :: ps).map ElemText.text) ++ ']' :: rest)) := by
            simp only [List.map, joinComma, List.append_assoc, List.cons_append]
            rw [show p.text = p.pre ++ p.body ++ p.post from rfl]
            simp only [List.append_assoc]
            rw [skipWs_append _ hpre, hb]
            exact skipWs_cons hc
          have e2 : skipWs (p.post ++ ',' :: (joinComma ((p' :: ps).map ElemText.text) ++ ']' :: rest)) =
              ',' :: (joinComma ((p' :: ps).map ElemText.text) ++ ']' :: rest) := by
            rw [skipWs_append _ hpost]
            exact skipWs_cons (by decide)
          simp only [parseElems, e1, hK f (by omega), e2, hK2 f (by omega)]

/-- members followed by the closing brace -/
theorem parseMembers_text {d : Nat} : ∀ {l : List (Str × JV)} {ps : List MemberText}, l ≠ [] → ps.length = l.length →
    (∀ p ∈ ps, p.ws) → (∀ (i : Nat) (kv : Str × JV) (p : MemberText), l[i]? = some kv → ps[i]? = some p → KeyReads kv.1 p.key) →
    (∀ (i : Nat) (kv : Str × JV) (p : MemberText), l[i]? = some kv → ps[i]? = some p → TokenHead p.body ∧ Parses d p.body kv.2) →
    ∀ rest, ∃ K, ∀ f ≥ K, parseMembers f d (joinComma (ps.map MemberText.text) ++ '}' :: rest) = .ok (l, rest) := by
  intro l
  induction l with
  | nil => intro ps h; exact absurd rfl h
  | cons kv l ih =>
    intro ps _ hlen hw hk h rest
    match ps, hlen with
    | p :: ps, hlen =>
      obtain ⟨hj, hp⟩ := h 0 kv p rfl rfl
      have hkey := hk 0 kv p rfl rfl
      obtain ⟨hpre, hmid, hmid2, hpost⟩ := hw p (by simp)
      obtain ⟨c, cs, hb, hc, _, _⟩ := hj
      have step : ∀ (tail : Str), NumEnd (p.post ++ tail) → ∃ K, ∀ f ≥ K, ∀ (s : Str), s = p.text ++ tail →
          (∀ rest', skipWs tail = '}' :: rest' → parseMembers (f + 1) d s = .ok ([kv], rest')) ∧
          (∀ rest' l' rest'', skipWs tail = ',' :: rest' → parseMembers f d rest' = .ok (l', rest'') →
            parseMembers (f + 1) d s = .ok (kv :: l', rest'')) := by
        intro tail hne
        obtain ⟨K, hK⟩ := hp (p.post ++ tail) hne
        refine ⟨K, fun f hf s hs => ?_⟩
        subst hs
        have e1 : skipWs (p.text ++ tail) = '"' :: (p.key ++ '"' :: (p.mid ++ ':' :: (p.mid2 ++ (p.body ++ (p.post ++ tail))))) := by
          simp only [MemberText.text, List.append_assoc, List.cons_append]
          rw [skipWs_append _ hpre]
          exact skipWs_cons (by decide)
        have e2 : skipWs (p.mid2 ++ (p.body ++ (p.post ++ tail))) = p.body ++ (p.post ++ tail) := by
          rw [skipWs_append _ hmid2, hb]
          exact skipWs_cons hc
        have e3 : skipWs (p.mid ++ ':' :: (p.mid2 ++ (p.body ++ (p.post ++ tail)))) = ':' :: (p.mid2 ++ (p.body ++ (p.post ++ tail))) := by
          rw [skipWs_append _ hmid]
          exact skipWs_cons (by decide)
        refine ⟨fun rest' ht => ?_, fun rest' l' rest'' ht hm => ?_⟩
        · simp only [parseMembers, e1, hkey.1, e3, e2, hK f hf, skipWs_append _ hpost, hkey.2, ht]
        · simp only [parseMembers, e1, hkey.1, e3, e2, hK f hf, skipWs_append _ hpost, hkey.2, ht, hm]
      cases l with
      | nil =>
        have : ps = [] := List.length_eq_zero_iff.1 (by simpa using hlen)
        subst this
        obtain ⟨K, hK⟩ := step ('}' :: rest) (numEnd_ws hpost (by intro c h; simp at h; subst h; decide))
        refine ⟨K + 1, fun f hf => ?_⟩
        obtain ⟨f, rfl⟩ : ∃ f', f = f' + 1 := ⟨f - 1, by omega⟩
        exact (hK f (by omega) _ rfl).1 rest (skipWs_cons (by decide))
      | cons kv' l =>
        match ps, hlen with
        | p' :: ps, hlen =>
          obtain ⟨K2, hK2⟩ := ih (ps := p' :: ps) (by simp) (by simpa using hlen) (fun q hq => hw q (by simp [List.mem_cons.1 hq]))
            (fun i v q hv hq => hk (i + 1) v q (by simpa using hv) (by simpa using hq))
            (fun i v q hv hq => h (i + 1) v q (by simpa using hv) (by simpa using hq)) rest
          obtain ⟨K, hK⟩ := step (',' :: (joinComma ((p' :: ps).map MemberText.text) ++ '}' :: rest))
            (numEnd_ws hpost (by intro c h; simp at h; subst h; decide))
          refine ⟨max K K2 + 1, fun f hf => ?_⟩
          obtain ⟨f, rfl⟩ : ∃ f', f = f' + 1 := ⟨f - 1, by omega⟩
          exact (hK f (by omega) _ (by simp [joinComma])).2 _ _ _ (skipWs_cons (by decide)) (hK2 f (by omega))

theorem parses_json {v : JV} {b : Str} (h : Json v b) : ∀ {d : Nat}, DepthLe d v → Parses d b v := by
  induction h with
  | null =>
    intro d hd rest _
    cases hd
    refine ⟨1, fun f hf => ?_⟩
    obtain ⟨f, rfl⟩ : ∃ f', f = f' + 1 := ⟨f - 1, by omega⟩
    rw [show str "null" ++ rest = 'n' :: 'u' :: 'l' :: 'l' :: rest from rfl]
    simp [parseValue, parseNull, stripPrefix, str]
  | true =>
    intro d hd rest _
    cases hd
    refine ⟨1, fun f hf => ?_⟩
    obtain ⟨f, rfl⟩ : ∃ f', f = f' + 1 := ⟨f - 1, by omega⟩
    rw [show str "true" ++ rest = 't' :: 'r' :: 'u' :: 'e' :: rest from rfl]
    simp [parseValue, stripPrefix, str]
  | false =>
    intro d hd rest _
    cases hd
    refine ⟨1, fun f hf => ?_⟩
    obtain ⟨f, rfl⟩ : ∃ f', f = f' + 1 := ⟨f - 1, by omega⟩
    rw [show str "false" ++ rest = 'f' :: 'a' :: 'l' :: 's' :: 'e' :: rest from rfl]
    simp [parseValue, stripPrefix, str]
  | num h =>
    intro d hd rest hr
    cases hd
    refine ⟨1, fun f hf => ?_⟩
    obtain ⟨f, rfl⟩ : ∃ f', f = f' + 1 := ⟨f - 1, by omega⟩
    have hn := rawNumber_text h hr
    obtain ⟨hall, c, cs, rfl, hc⟩ := numText_head h
    have hcn := hall c (by simp)
    simp only [List.cons_append] at hn ⊢
    simp only [parseValue]
    rw [if_neg (by rintro rfl; simp [isNumChar, isDigit] at hcn), if_neg (by rintro rfl; simp [isNumChar, isDigit] at hcn),
      if_neg (by rintro rfl; simp [isNumChar, isDigit] at hcn), if_neg (by rintro rfl; simp [isNumChar, isDigit] at hcn),
      if_neg (by rintro rfl; simp [isNumChar, isDigit] at hcn), if_neg (by rintro rfl; simp [isNumChar, isDigit] at hcn), hn]
  | str h =>
    intro d hd rest _
    cases hd
    refine ⟨1, fun f hf => ?_⟩
    obtain ⟨f, rfl⟩ : ∃ f', f = f' + 1 := ⟨f - 1, by omega⟩
    simp only [List.cons_append, List.append_assoc, List.nil_append, parseValue]
    rw [if_neg (by decide), if_neg (by decide), if_pos (by trivial), rawString_text h]
    simp only [unescapeStr_text h]
  | arr0 h =>
    intro d hd rest _
    cases hd
    refine ⟨1, fun f hf => ?_⟩
    obtain ⟨f, rfl⟩ : ∃ f', f = f' + 1 := ⟨f - 1, by omega⟩
    simp only [List.cons_append, List.append_assoc, List.nil_append, parseValue]
    rw [if_neg (by decide), if_pos (by trivial), skipWs_append _ h, skipWs_cons (by decide)]
    simp
  | obj0 h =>
    intro d hd rest _
    cases hd
    refine ⟨1, fun f hf => ?_⟩
    obtain ⟨f, rfl⟩ : ∃ f', f = f' + 1 := ⟨f - 1, by omega⟩
    simp only [List.cons_append, List.append_assoc, List.nil_append, parseValue]
    rw [if_pos (by trivial), skipWs_append _ h, skipWs_cons (by decide)]
    simp
  | @arr l ps hne hl hw h ih =>
    intro d hd rest _
    cases hd with
    | @arr d _ hd =>
      obtain ⟨K, hK⟩ := parseElems_text hne hl hw
        (fun i v p hv hp => ⟨json_head (h i v p hv hp), ih i v p hv hp (hd v (List.mem_of_getElem? hv))⟩) rest
      refine ⟨K + 2, fun f hf => ?_⟩
      obtain ⟨f, rfl⟩ : ∃ f', f = f' + 1 := ⟨f - 1, by omega⟩
      simp only [List.cons_append, List.append_assoc, List.nil_append, parseValue]
      rw [if_neg (by decide), if_pos (by trivial)]
      -- the loop skips whitespace itself
      have hsk : ∀ s f, parseElems (f + 1) d (skipWs s) = parseElems (f + 1) d s := by
        intro s f
        have : skipWs (skipWs s) = skipWs s := by
          induction s with
          | nil => rfl
          | cons c cs ihs =>
            simp only [skipWs]
            split
            · exact ihs
            · rename_i hc; simp [skipWs, hc]
        simp only [parseElems, this]
      obtain ⟨f, rfl⟩ : ∃ f', f = f' + 1 := ⟨f - 1, by omega⟩
      rw [if_neg, hsk, hK _ (by omega)]
      · match l, ps, hne, hl with
        | v :: l, p :: ps, _, _ =>
          obtain ⟨c, cs, hb, hc, hc', _⟩ := json_head (h 0 v p rfl rfl)
          have hpre := (hw p (by simp)).1
          have : ∃ tl, joinComma (List.map ElemText.text (p :: ps)) ++ ']' :: rest = p.pre ++ (c :: tl) := by
            cases ps with
            | nil => exact ⟨_, by simp only [List.map, joinComma, ElemText.text, hb, List.append_assoc, List.cons_append]; rfl⟩
            | cons q ps => exact ⟨_, by simp only [List.map, joinComma, ElemText.text, hb, List.append_assoc, List.cons_append]; rfl⟩
          obtain ⟨tl, htl⟩ := this
          rw [htl, skipWs_append _ hpre, skipWs_cons hc]
          simp [hc']
  | @obj kvs ps hne hl hw hk h ih =>
    intro d hd rest _
    cases hd with
    | @obj d _ hd =>
      obtain ⟨K, hK⟩ := parseMembers_text hne hl hw (fun i kv p hv hp => keyReads_text (hk i kv p hv hp))
        (fun i v p hv hp => ⟨json_head (h i v p hv hp), ih i v p hv hp (hd v (List.mem_of_getElem? hv))⟩) rest
      refine ⟨K + 2, fun f hf => ?_⟩
      obtain ⟨f, rfl⟩ : ∃ f', f = f' + 1 := ⟨f - 1, by omega⟩
      simp only [List.cons_append, List.append_assoc, List.nil_append, parseValue]
      rw [if_pos (by trivial)]
      have hsk : ∀ s f, parseMembers (f + 1) d (skipWs s) = parseMembers (f + 1) d s := by
        intro s f
        have : skipWs (skipWs s) = skipWs s := by
          induction s with
          | nil => rfl
          | cons c cs ihs =>
            simp only [skipWs]
            split
            · exact ihs
            · rename_i hc; simp [skipWs, hc]
        simp only [parseMembers, this]
      obtain ⟨f, rfl⟩ : ∃ f', f = f' + 1 := ⟨f - 1, by omega⟩
      rw [if_neg, hsk, hK _ (by omega)]
      · match kvs, ps, hne, hl with
        | v :: l, p :: ps, _, _ =>
          have hpre := (hw p (by simp)).1
          have : ∃ tl, joinComma (List.map MemberText.text (p :: ps)) ++ '}' :: rest = p.pre ++ ('"' :: tl) := by
            cases ps with
            | nil => exact ⟨_, by simp only [List.map, joinComma, MemberText.text, List.append_assoc, List.cons_append]; rfl⟩
            | cons q ps => exact ⟨_, by simp only [List.map, joinComma, MemberText.text, List.append_assoc, List.cons_append]; rfl⟩
          obtain ⟨tl, htl⟩ := this
          rw [htl, skipWs_append _ hpre, skipWs_cons (by decide)]
          simp

/-- Every JSON text nested at most 300 deep is parsed to the value it denotes. -/
theorem parseBytes_document {v : JV} {s : Str} (h : Document v s) (hd : DepthLe maxDepth v) : parseBytes s = some v := by
  obtain ⟨a, b, c, rfl, ha, hc, hj⟩ := h
  obtain ⟨c0, cs, hb, hc0, _, _⟩ := json_head hj
  obtain ⟨K, hK⟩ := parses_json hj hd c (by
    intro x hx
    cases c with
    | nil => simp at hx
    | cons w ws => simp at hx; subst hx; rcases hc w (by simp) with rfl | rfl | rfl | rfl <;> decide)
  have e1 : skipWs (a ++ b ++ c) = b ++ c := by
    rw [List.append_assoc, skipWs_append _ ha, hb]
    exact skipWs_cons hc0
  have := parse_enough (fuel := 2 * (a ++ b ++ c).length + 2) (by simp; omega) (hK K (Nat.le_refl _))
  simp only [parseBytes, e1, this, skipWs_ws hc, if_true]

end VJ
