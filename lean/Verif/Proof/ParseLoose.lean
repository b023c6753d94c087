import Verif.Proof.Codecs
import Verif.Spec.LooseText

/-!
# The parser accepts exactly the loose documents
-/

namespace VJ
set_option linter.unusedSimpArgs false

/-! ## Strings -/

theorem hex4_iff {a b c d : Char} {n : Nat} : hex4 a b c d = some n ↔ Hex4 [a, b, c, d] n := by
  constructor
  · intro h
    unfold hex4 at h
    split at h
    · rename_i h1 h2 h3 h4
      cases h
      exact .mk (hexVal_iff.1 h1) (hexVal_iff.1 h2) (hexVal_iff.1 h3) (hexVal_iff.1 h4)
    · cases h
  · intro h
    obtain ⟨a', b', c', d', he, hv, _⟩ := hex4_val h
    cases he
    exact hv

theorem startsHex4_cons {a b c d : Char} {r : Str} : StartsHex4 (a :: b :: c :: d :: r) ↔ ∃ n, hex4 a b c d = some n := by
  constructor
  · rintro ⟨h, n, r', hh, he⟩
    obtain ⟨a', b', c', d', rfl, hv, _⟩ := hex4_val hh
    simp only [List.cons_append, List.nil_append, List.cons.injEq] at he
    obtain ⟨rfl, rfl, rfl, rfl, _⟩ := he
    exact ⟨n, hv⟩
  · rintro ⟨n, h⟩
    exact ⟨_, n, r, hex4_iff.1 h, rfl⟩

theorem startsHex4_length {u : Str} (h : StartsHex4 u) : 4 ≤ u.length := by
  obtain ⟨h, n, r, hh, rfl⟩ := h
  obtain ⟨a, b, c, d, rfl, _⟩ := hex4_val hh
  simp

theorem simpleEsc_unknown {e : Char} (h : ¬ KnownEscape e) : e ≠ 'u' ∧ simpleEsc e = none := by
  simp only [KnownEscape, str] at h
  simp at h
  obtain ⟨h1, h2, h3, h4, h5, h6, h7, h8, h9⟩ := h
  exact ⟨h9, by simp [simpleEsc, h1, h2, h3, h4, h5, h6, h7, h8]⟩

theorem simpleEsc_text {e c : Char} (h : simpleEsc e = some c) : CharText c ['\\', e] := by
  unfold simpleEsc at h
  repeat' split at h
  all_goals first
    | (subst_vars; cases h; constructor)
    | cases h

theorem simpleEsc_none {e : Char} (h : simpleEsc e = none) (hu : e ≠ 'u') : ¬ KnownEscape e := by
  intro hk
  simp only [KnownEscape, str] at hk
  simp at hk
  rcases hk with rfl | rfl | rfl | rfl | rfl | rfl | rfl | rfl | rfl
  all_goals first
    | exact hu rfl
    | simp [simpleEsc] at h

theorem isSurrogate_iff {x : Nat} : isSurrogate x = true ↔ Surrogate x := by
  simp [isSurrogate, Surrogate]

theorem hex4_plain {h : Str} {n : Nat} (hh : Hex4 h n) : ∀ x ∈ h, x ≠ '"' ∧ x ≠ '\\' := by
  obtain ⟨_, _, _, _, _, _, hs⟩ := hex4_val hh
  exact hs

theorem rawString_loose {s t : Str} (h : LooseStr s t) (rest : Str) : rawString false (t ++ '"' :: rest) = some (t, rest) := by
  induction h with
  | nil => simp [rawString]
  | @char c s u hq hb _ ih =>
    have := rawString_plain [c] (u ++ '"' :: rest) (by simp [hq, hb])
    rw [ih] at this
    exact this
  | @esc c t s u h _ ih =>
    rw [List.append_assoc, rawString_char h, ih]; rfl
  | @unknown e s u _ _ ih =>
    have := rawString_esc e [] (u ++ '"' :: rest) (by simp)
    rw [ih] at this
    exact this
  | @noHex s u _ _ ih =>
    have := rawString_esc 'u' [] (u ++ '"' :: rest) (by simp)
    rw [ih] at this
    exact this
  | @alone h s u x hh _ _ _ ih =>
    rw [List.append_assoc, rawString_esc 'u' h _ (hex4_plain hh), ih]; rfl
  | @noPair h l s u x y hh _ hl _ _ ih =>
    have h1 := rawString_esc 'u' h ('\\' :: 'u' :: l ++ (u ++ '"' :: rest)) (hex4_plain hh)
    rw [rawString_esc 'u' l _ (hex4_plain hl), ih] at h1
    simp only [List.cons_append, List.append_assoc] at h1 ⊢
    rw [h1]
    simp

theorem unescape_loose {s t : Str} (h : LooseStr s t) : ∀ {fuel : Nat}, t.length < fuel → unescape fuel t = s := by
  induction h with
  | nil => intro fuel h; cases fuel with
    | zero => omega
    | succ f => rfl
  | @char c s u hq hb _ ih =>
    intro fuel hf
    obtain ⟨f, rfl⟩ : ∃ f', fuel = f' + 1 := ⟨fuel - 1, by omega⟩
    simp only [unescape, ne_eq, hb, not_false_eq_true, if_true]
    rw [ih (by simp at hf; omega)]
  | @esc c t s u h _ ih =>
    intro fuel hf
    obtain ⟨f', h1, h2⟩ := unescape_char h _ hf
    rw [h2, ih h1]
  | @unknown e s u he _ ih =>
    intro fuel hf
    obtain ⟨f, rfl⟩ : ∃ f', fuel = f' + 1 := ⟨fuel - 1, by omega⟩
    obtain ⟨h1, h2⟩ := simpleEsc_unknown he
    simp only [unescape, ne_eq, not_true_eq_false, if_false, h1, h2]
    rw [ih (by simp at hf; omega)]
  | @noHex s u hn hls ih =>
    intro fuel hf
    obtain ⟨f, rfl⟩ : ∃ f', fuel = f' + 1 := ⟨fuel - 1, by omega⟩
    have hi := ih (fuel := f) (by simp at hf; omega)
    simp only [unescape, ne_eq, not_true_eq_false, if_false, if_true]
    split
    · rename_i h1 h2 h3 h4 tail
      have : hex4 h1 h2 h3 h4 = none := by
        cases hx : hex4 h1 h2 h3 h4 with
        | none => rfl
        | some n => exact absurd (startsHex4_cons.2 ⟨n, hx⟩) hn
      simp only [this, hi]
    · rw [hi]
  | @alone h s u x hh hx hu hls ih =>
    intro fuel hf
    obtain ⟨f, rfl⟩ : ∃ f', fuel = f' + 1 := ⟨fuel - 1, by omega⟩
    obtain ⟨a, b, c, d, rfl, hv, _⟩ := hex4_val hh
    have hi := ih (fuel := f) (by simp at hf; omega)
    simp only [List.cons_append, List.nil_append, unescape, ne_eq, not_true_eq_false, if_false, if_true, hv,
      isSurrogate_iff.2 hx]
    split
    · rename_i k1 k2 k3 k4 tail
      have : hex4 k1 k2 k3 k4 = none := by
        cases hx : hex4 k1 k2 k3 k4 with
        | none => rfl
        | some n => exact absurd (startsHex4_cons.2 ⟨n, hx⟩) (hu _ rfl)
      simp only [this, hi]
    · rw [hi]
  | @noPair h l s u x y hh hx hl hn _ ih =>
    intro fuel hf
    obtain ⟨f, rfl⟩ : ∃ f', fuel = f' + 1 := ⟨fuel - 1, by omega⟩
    obtain ⟨a, b, c, d, rfl, hv, _⟩ := hex4_val hh
    obtain ⟨a', b', c', d', rfl, hv', _⟩ := hex4_val hl
    have hi := ih (fuel := f) (by simp at hf; omega)
    have hd : decodeRune x y = Char.ofNat 0xFFFD := by
      unfold decodeRune
      rw [if_neg (by rintro ⟨_, h⟩; exact hn h)]
    simp only [List.cons_append, List.nil_append, unescape, ne_eq, not_true_eq_false, if_false, if_true, hv, hv',
      isSurrogate_iff.2 hx, hd, hi]

theorem keyReads_loose {s t : Str} (h : LooseStr s t) : KeyReads s t := ⟨rawString_loose h, unescape_loose h (by omega)⟩

/-- every quote is escaped, and no backslash is left over; `e`: an odd number of backslashes
stands just before -/
def Closed : Bool → Str → Prop
  | e, [] => e = false
  | e, c :: cs => ¬ (c = '"' ∧ e = false) ∧ Closed (c = '\\' && !e) cs

theorem rawString_split : ∀ (s : Str) (e : Bool) {t rest : Str}, rawString e s = some (t, rest) →
    s = t ++ '"' :: rest ∧ Closed e t
  | [], _, _, _, h => by simp [rawString] at h
  | c :: cs, e, t, rest, h => by
    simp only [rawString] at h
    split at h
    · rename_i hc
      cases h
      exact ⟨by rw [hc.1]; rfl, hc.2⟩
    · rename_i hc
      split at h
      · rename_i r rest' hr
        cases h
        obtain ⟨rfl, hcl⟩ := rawString_split cs _ hr
        exact ⟨rfl, hc, hcl⟩
      · cases h

theorem closed_plain {h u : Str} (hp : ∀ x ∈ h, x ≠ '"' ∧ x ≠ '\\') (hc : Closed false (h ++ u)) : Closed false u := by
  induction h with
  | nil => exact hc
  | cons c h ih =>
    have hx := hp c (by simp)
    have h2 := hc.2
    simp only [hx.2, decide_false, Bool.false_and] at h2
    exact ih (fun x hx => hp x (by simp [hx])) h2

theorem surrogate_char {x : Nat} (hx : ¬ Surrogate x) (hlt : x < 65536) : (Char.ofNat x).toNat = x := by
  have : x.isValidChar := by
    simp only [Nat.isValidChar]
    simp only [Surrogate] at hx
    omega
  simp [Char.ofNat, this, Char.toNat, Char.ofNatAux]

theorem hex4_lt {h : Str} {x : Nat} (hh : Hex4 h x) : x < 65536 := by
  cases hh with
  | mk ha hb hc hd =>
    have := (hexDigit_val ha).2.1
    have := (hexDigit_val hb).2.1
    have := (hexDigit_val hc).2.1
    have := (hexDigit_val hd).2.1
    omega

theorem decodeRune_toNat {hi lo : Nat} (h1 : hi < 1024) (h2 : lo < 1024) :
    (decodeRune (0xD800 + hi) (0xDC00 + lo)).toNat = 0x10000 + hi * 1024 + lo := by
  unfold decodeRune
  rw [if_pos (by omega)]
  rw [show (0xD800 + hi - 0xD800) * 1024 + (0xDC00 + lo - 0xDC00) + 0x10000 = 0x10000 + hi * 1024 + lo by omega]
  have : (0x10000 + hi * 1024 + lo).isValidChar := by
    simp only [Nat.isValidChar]
    omega
  simp only [Char.ofNat, this, dif_pos, Char.toNat, Char.ofNatAux]
  simp
  omega

theorem unescape_sound : ∀ (fuel : Nat) (t : Str), t.length < fuel → Closed false t → LooseStr (unescape fuel t) t := by
  intro fuel
  induction fuel with
  | zero => intro t h; omega
  | succ fuel ih =>
    intro t hf hc
    match t, hf, hc with
    | [], _, _ => exact .nil
    | c :: cs, hf, hc =>
      simp only [unescape]
      split
      · rename_i hb
        have h2 := hc.2
        simp only [hb, decide_false, Bool.false_and] at h2
        exact .char (fun h => hc.1 ⟨h, rfl⟩) hb (ih cs (by simp at hf; omega) h2)
      · rename_i hb
        have hb : c = '\\' := Classical.not_not.1 hb
        subst hb
        have h2 := hc.2
        simp only [decide_true, Bool.not_false, Bool.and_true] at h2
        match cs, h2, hf with
        | [], h2, _ => cases h2
        | e :: rest, h2, hf =>
          have h3 : Closed false rest := by
            have := h2.2
            simpa using this
          simp only
          have hr := ih rest (by simp at hf; omega) h3
          split
          · rename_i he
            subst he
            split
            · rename_i a b c d tail
              split
              · rename_i hx
                exact .noHex (fun h => by
                  obtain ⟨n, hn⟩ := startsHex4_cons.1 h
                  rw [hx] at hn; cases hn) hr
              · rename_i x hx
                have hh := hex4_iff.1 hx
                have h4 : Closed false tail := closed_plain (hex4_plain hh) h3
                have ht := ih tail (by simp at hf; omega) h4
                split
                · rename_i hsur
                  have hsur := isSurrogate_iff.1 hsur
                  split
                  · rename_i k1 k2 k3 k4 tail'
                    split
                    · rename_i hy
                      refine LooseStr.alone hh hsur ?_ ht
                      intro r hr hs
                      cases hr
                      obtain ⟨n, hn⟩ := startsHex4_cons.1 hs
                      rw [hy] at hn; cases hn
                    · rename_i y hy
                      have hl := hex4_iff.1 hy
                      have h5 : Closed false (k1 :: k2 :: k3 :: k4 :: tail') := by
                        have := h4.2.2
                        simpa using this
                      have h6 : Closed false tail' := closed_plain (hex4_plain hl) h5
                      have ht' := ih tail' (by simp at hf; omega) h6
                      by_cases hp : x < 0xDC00 ∧ 0xDC00 ≤ y ∧ y < 0xE000
                      · obtain ⟨hi, rfl⟩ : ∃ hi, x = 0xD800 + hi := ⟨x - 0xD800, by have := hsur.1; omega⟩
                        obtain ⟨lo, rfl⟩ : ∃ lo, y = 0xDC00 + lo := ⟨y - 0xDC00, by omega⟩
                        have hpair := CharText.pair hh hl (by omega) (by omega) (decodeRune_toNat (hi := hi) (lo := lo) (by omega) (by omega))
                        exact LooseStr.esc hpair ht'
                      · have hd : decodeRune x y = Char.ofNat 0xFFFD := by
                          unfold decodeRune
                          rw [if_neg (by rintro ⟨_, h⟩; exact hp h)]
                        rw [hd]
                        exact LooseStr.noPair hh hsur hl hp ht'
                  · rename_i hno
                    refine LooseStr.alone hh hsur ?_ ht
                    rintro r rfl hs
                    obtain ⟨h, n, r', hh', rfl⟩ := hs
                    obtain ⟨a', b', c', d', rfl, _⟩ := hex4_val hh'
                    exact hno _ _ _ _ _ rfl
                · rename_i hsur
                  have hsur : ¬ Surrogate x := fun h => hsur (isSurrogate_iff.2 h)
                  have hcx := surrogate_char hsur (hex4_lt hh)
                  have hu : CharText (Char.ofNat x) ('\\' :: 'u' :: [a, b, c, d]) := .u (by rw [hcx]; exact hh)
                  exact LooseStr.esc hu ht
            · rename_i hno
              refine .noHex (fun h => ?_) hr
              obtain ⟨h, n, r', hh', rfl⟩ := h
              obtain ⟨a', b', c', d', rfl, _⟩ := hex4_val hh'
              exact hno _ _ _ _ _ rfl
          · rename_i he
            split
            · rename_i d hd
              exact LooseStr.esc (t := [e]) (simpleEsc_text hd) hr
            · rename_i hd
              exact .unknown (simpleEsc_none hd he) hr

theorem rawString_sound {s t rest : Str} (h : rawString false s = some (t, rest)) :
    s = t ++ '"' :: rest ∧ LooseStr (unescapeStr t) t := by
  obtain ⟨h1, h2⟩ := rawString_split s false h
  exact ⟨h1, unescape_sound _ t (by omega) h2⟩

/-! ## Numbers -/

theorem isNumChar_iff {c : Char} : isNumChar c = true ↔ NumLetter c := by
  constructor
  · intro h
    simp only [isNumChar, Bool.or_eq_true, decide_eq_true_eq] at h
    rcases h with ((((h | h) | h) | h) | h) | h
    · refine Or.inl ⟨c.toNat - 48, ?_, ?_⟩
      · simp [isDigit] at h; omega
      · simp [isDigit] at h
        rw [show 48 + (c.toNat - 48) = c.toNat by omega, Char.ofNat_toNat]
    all_goals (subst h; exact Or.inr (by decide))
  · rintro (⟨d, hd, rfl⟩ | h)
    · simp [isNumChar, isDigit_ofNat hd]
    · simp only [str] at h
      simp at h
      rcases h with rfl | rfl | rfl | rfl | rfl <;> decide

theorem lowerChar_iff {a l : Char} (hl : 97 ≤ l.toNat ∧ l.toNat ≤ 122) :
    lowerChar a = l ↔ a = l ∨ a = Char.ofNat (l.toNat - 32) := by
  unfold lowerChar
  split
  · rename_i h
    have hv : ∀ m < 200, (Char.ofNat m).toNat = m := fun m h => surrogate_char (by simp only [Surrogate]; omega) (by omega)
    constructor
    · rintro rfl
      right
      rw [hv _ (by omega), Nat.add_sub_cancel, Char.ofNat_toNat]
    · rintro (rfl | rfl)
      · omega
      · rw [hv _ (by omega), Nat.sub_add_cancel (by omega), Char.ofNat_toNat]
  · rename_i h
    constructor
    · rintro rfl; exact Or.inl rfl
    · rintro (rfl | rfl)
      · rfl
      · have hv : ∀ m < 200, (Char.ofNat m).toNat = m := fun m h => surrogate_char (by simp only [Surrogate]; omega) (by omega)
        rw [hv _ (by omega)] at h
        omega

theorem isInfNan_iff {a b c : Char} : isInfNan a b c = true ↔ InfNan [a, b, c] := by
  have hi : lowerChar a = 'i' ↔ a ∈ str "iI" := by rw [lowerChar_iff (by decide)]; simp [str]
  have hn : ∀ x, lowerChar x = 'n' ↔ x ∈ str "nN" := by intro x; rw [lowerChar_iff (by decide)]; simp [str]
  have hf : lowerChar c = 'f' ↔ c ∈ str "fF" := by rw [lowerChar_iff (by decide)]; simp [str]
  have ha : lowerChar b = 'a' ↔ b ∈ str "aA" := by rw [lowerChar_iff (by decide)]; simp [str]
  have h1 : isInfNan a b c = true ↔ (lowerChar a = 'i' ∧ lowerChar b = 'n' ∧ lowerChar c = 'f') ∨
      (lowerChar a = 'n' ∧ lowerChar b = 'a' ∧ lowerChar c = 'n') := by
    simp [isInfNan, str]
  rw [h1, hi, hn, hn, hn, hf, ha]
  constructor
  · intro h; exact ⟨a, b, c, rfl, h⟩
  · rintro ⟨_, _, _, he, h⟩
    cases he
    exact h

theorem spanNum_mem (s : Str) : ∀ c ∈ (spanNum s).1, isNumChar c = true := by
  induction s with
  | nil => simp [spanNum]
  | cons c cs ih =>
    simp only [spanNum]
    split
    · rename_i h
      intro x hx
      simp only [List.mem_cons] at hx
      rcases hx with rfl | hx
      · exact h
      · exact ih x hx
    · simp

/-- a sign standing alone -/
def SignOnly (s : Str) : Prop := s = ['-'] ∨ s = ['+']

theorem rawNumber_sound {c : Char} {cs ns rest : Str} (h : rawNumber (c :: cs) = some (ns, rest)) :
    c :: cs = ns ++ rest ∧ (LooseNum ns ∨ (rest = [] ∧ SignOnly ns)) := by
  have happ := spanNum_append (c :: cs)
  have hmem := spanNum_mem (c :: cs)
  unfold rawNumber at h
  split at h
  · rename_i ns' hs
    rw [hs] at happ hmem
    cases h
    simp only at happ hmem
    refine ⟨happ.symm, ?_⟩
    by_cases hsg : SignOnly ns
    · exact Or.inr ⟨rfl, hsg⟩
    · left; left
      refine ⟨?_, fun x hx => isNumChar_iff.1 (hmem x hx), fun h => hsg (Or.inl h), fun h => hsg (Or.inr h)⟩
      rintro rfl
      simp at happ
  · rename_i ns' c' rest' hs
    rw [hs] at happ hmem
    simp only at happ hmem
    split at h
    · rename_i hns
      match rest', h with
      | b :: d :: tail, h =>
        simp only at h
        split at h
        · rename_i hin
          cases h
          refine ⟨by rw [← happ]; simp, Or.inl (Or.inr ⟨ns', [c', b, d], rfl, hns, isInfNan_iff.1 hin⟩)⟩
        · cases h
      | [], h => simp at h
      | [_], h => simp at h
    · rename_i hns
      cases h
      refine ⟨happ.symm, Or.inl (Or.inl ⟨fun h => hns (Or.inl h), fun x hx => isNumChar_iff.1 (hmem x hx),
        fun h => hns (Or.inr (Or.inl h)), fun h => hns (Or.inr (Or.inr h))⟩)⟩

theorem infNan_head {n : Str} (h : InfNan n) : ∃ a b c, n = [a, b, c] ∧ isNumChar a = false ∧ (a ∈ str "iInN") := by
  obtain ⟨a, b, c, rfl, h⟩ := h
  have : a ∈ str "iInN" := by
    rcases h with ⟨h, _⟩ | ⟨h, _⟩ <;> simp [str] at h ⊢ <;> rcases h with rfl | rfl <;> simp
  refine ⟨a, b, c, rfl, ?_, this⟩
  simp [str] at this
  rcases this with rfl | rfl | rfl | rfl <;> decide

theorem rawNumber_loose {raw : Str} (h : LooseNum raw) {rest : Str} (hr : NumEnd rest) : rawNumber (raw ++ rest) = some (raw, rest) := by
  rcases h with ⟨h0, hall, hm, hp⟩ | ⟨sign, n, rfl, hs, hn⟩
  · unfold rawNumber
    rw [spanNum_all _ _ (fun c hc => isNumChar_iff.2 (hall c hc)) hr]
    cases rest with
    | nil => rfl
    | cons r rs =>
      simp only
      rw [if_neg (by simp [h0, hm, hp])]
  · obtain ⟨a, b, c, rfl, ha, _⟩ := infNan_head hn
    have hsall : ∀ x ∈ sign, isNumChar x = true := by
      rcases hs with rfl | rfl | rfl <;> simp [isNumChar]
    unfold rawNumber
    rw [List.append_assoc, spanNum_all sign ([a, b, c] ++ rest) hsall (numEnd_cons ha)]
    simp only [List.cons_append, List.nil_append, hs, if_true, isInfNan_iff.2 hn]

theorem looseNum_head {raw : Str} (h : LooseNum raw) : ∃ c cs, raw = c :: cs ∧ (isNumChar c = true ∨ c ∈ str "iInN") := by
  rcases h with ⟨h0, hall, _, _⟩ | ⟨sign, n, rfl, hs, hn⟩
  · cases raw with
    | nil => exact absurd rfl h0
    | cons c cs => exact ⟨c, cs, rfl, Or.inl (isNumChar_iff.2 (hall c (by simp)))⟩
  · obtain ⟨a, b, c, rfl, ha, hm⟩ := infNan_head hn
    rcases hs with rfl | rfl | rfl
    · exact ⟨a, [b, c], rfl, Or.inr hm⟩
    · exact ⟨'-', [a, b, c], rfl, Or.inl (by decide)⟩
    · exact ⟨'+', [a, b, c], rfl, Or.inl (by decide)⟩

theorem parseNull_loose {cs rest : Str} (h : LooseNum ('n' :: cs)) : parseNull (cs ++ rest) = .ok (.num ('n' :: cs), rest) := by
  rcases h with ⟨h0, hall, _, _⟩ | ⟨sign, n, he, hs, hn⟩
  · exact absurd (isNumChar_iff.2 (hall 'n' (by simp))) (by decide)
  · have hin := hn
    obtain ⟨a, b, c, rfl, ha, hm⟩ := infNan_head hn
    rcases hs with rfl | rfl | rfl
    · simp only [List.nil_append, List.cons.injEq] at he
      obtain ⟨rfl, rfl⟩ := he
      have h2 := isInfNan_iff.2 hin
      simp only [isInfNan, str] at h2
      simp [show lowerChar 'n' = 'n' by decide] at h2
      have hb : b ≠ 'u' := by rintro rfl; revert h2; simp [lowerChar]
      have hp : stripPrefix (str "ull") (b :: c :: rest) = none := by
        simp [stripPrefix, str, hb.symm]
      simp only [parseNull, List.cons_append, List.nil_append, hp, h2, and_self, if_true]
    · cases he
    · cases he

/-! ## Values -/

theorem loose_head {v : JV} {b : Str} (h : LooseJson v b) : TokenHead b := by
  cases h with
  | null => exact ⟨_, _, rfl, by decide, by decide, by decide⟩
  | true => exact ⟨_, _, rfl, by decide, by decide, by decide⟩
  | false => exact ⟨_, _, rfl, by decide, by decide, by decide⟩
  | str => exact ⟨_, _, rfl, by decide, by decide, by decide⟩
  | arr0 => exact ⟨_, _, rfl, by decide, by decide, by decide⟩
  | arr => exact ⟨_, _, rfl, by decide, by decide, by decide⟩
  | obj0 => exact ⟨_, _, rfl, by decide, by decide, by decide⟩
  | obj => exact ⟨_, _, rfl, by decide, by decide, by decide⟩
  | num h =>
    obtain ⟨c, cs, rfl, hc⟩ := looseNum_head h
    refine ⟨c, cs, rfl, ?_⟩
    rcases hc with hc | hc
    · refine ⟨?_, ?_, ?_⟩
      · cases hw : isWs c with
        | false => rfl
        | true => rcases isWs_iff.1 hw with rfl | rfl | rfl | rfl <;> simp [isNumChar, isDigit] at hc
      · rintro rfl; simp [isNumChar, isDigit] at hc
      · rintro rfl; simp [isNumChar, isDigit] at hc
    · simp [str] at hc
      rcases hc with rfl | rfl | rfl | rfl <;> exact ⟨by decide, by decide, by decide⟩

theorem skipWs_twice (s : Str) : skipWs (skipWs s) = skipWs s := by
  induction s with
  | nil => rfl
  | cons c cs ihs =>
    simp only [skipWs]
    split
    · exact ihs
    · rename_i hc; simp [skipWs, hc]

theorem parses_loose {v : JV} {b : Str} (h : LooseJson v b) : ∀ {d : Nat}, DepthLe d v → Parses d b v := by
  induction h with
  | null => exact parses_json .null
  | true => exact parses_json .true
  | false => exact parses_json .false
  | num h =>
    intro d hd rest hr
    cases hd
    refine ⟨1, fun f hf => ?_⟩
    obtain ⟨f, rfl⟩ : ∃ f', f = f' + 1 := ⟨f - 1, by omega⟩
    have hn := rawNumber_loose h hr
    obtain ⟨c, cs, rfl, hc⟩ := looseNum_head h
    simp only [List.cons_append] at hn ⊢
    simp only [parseValue]
    have hne : ∀ x, x ∈ str "{[\"tf" → c ≠ x := by
      rintro x hx rfl
      simp [str] at hx
      rcases hc with hc | hc
      · rcases hx with rfl | rfl | rfl | rfl | rfl <;> simp [isNumChar, isDigit] at hc
      · rcases hx with rfl | rfl | rfl | rfl | rfl <;> simp [str] at hc
    rw [if_neg (hne '{' (by decide)), if_neg (hne '[' (by decide)), if_neg (hne '"' (by decide)), if_neg (hne 't' (by decide)),
      if_neg (hne 'f' (by decide))]
    split
    · rename_i hcn
      subst hcn
      exact parseNull_loose h
    · rw [hn]
  | str h =>
    intro d hd rest _
    cases hd
    refine ⟨1, fun f hf => ?_⟩
    obtain ⟨f, rfl⟩ : ∃ f', f = f' + 1 := ⟨f - 1, by omega⟩
    simp only [List.cons_append, List.append_assoc, List.nil_append, parseValue]
    rw [if_neg (by decide), if_neg (by decide), if_pos (by trivial), (keyReads_loose h).1]
    simp only [(keyReads_loose h).2]
  | arr0 h => exact parses_json (.arr0 h)
  | obj0 h => exact parses_json (.obj0 h)
  | @arr l ps hne hl hw h ih =>
    intro d hd rest _
    cases hd with
    | @arr d _ hd =>
      obtain ⟨K, hK⟩ := parseElems_text hne hl hw
        (fun i v p hv hp => ⟨loose_head (h i v p hv hp), ih i v p hv hp (hd v (List.mem_of_getElem? hv))⟩) rest
      refine ⟨K + 2, fun f hf => ?_⟩
      obtain ⟨f, rfl⟩ : ∃ f', f = f' + 1 := ⟨f - 1, by omega⟩
      simp only [List.cons_append, List.append_assoc, List.nil_append, parseValue]
      rw [if_neg (by decide), if_pos (by trivial)]
      have hsk : ∀ s f, parseElems (f + 1) d (skipWs s) = parseElems (f + 1) d s := by
        intro s f
        simp only [parseElems, skipWs_twice]
      obtain ⟨f, rfl⟩ : ∃ f', f = f' + 1 := ⟨f - 1, by omega⟩
      rw [if_neg, hsk, hK _ (by omega)]
      · match l, ps, hne, hl with
        | v :: l, p :: ps, _, _ =>
          obtain ⟨c, cs, hb, hc, hc', _⟩ := loose_head (h 0 v p rfl rfl)
          have hpre := (hw p (by simp)).1
          have : ∃ tl, joinComma (List.map ElemText.text (p :: ps)) ++ ']' :: rest = p.pre ++ (c :: tl) := by
            cases ps with
            | nil => exact ⟨_, by simp only [List.map, joinComma, ElemText.text, hb, List.append_assoc, List.cons_append]; rfl⟩
            | cons q ps => exact ⟨_, by simp only [List.map, joinComma, ElemText.text, hb, List.append_assoc, List.cons_append]; rfl⟩
          obtain ⟨tl, htl⟩ := this
          rw [htl, skipWs_append _ hpre, skipWs_cons hc]
          simp [hc']
  | @obj kvs ps hne hl hw hk h ih =>
    intro d hd rest _
    cases hd with
    | @obj d _ hd =>
      obtain ⟨K, hK⟩ := parseMembers_text hne hl hw (fun i kv p hv hp => keyReads_loose (hk i kv p hv hp))
        (fun i v p hv hp => ⟨loose_head (h i v p hv hp), ih i v p hv hp (hd v (List.mem_of_getElem? hv))⟩) rest
      refine ⟨K + 2, fun f hf => ?_⟩
      obtain ⟨f, rfl⟩ : ∃ f', f = f' + 1 := ⟨f - 1, by omega⟩
      simp only [List.cons_append, List.append_assoc, List.nil_append, parseValue]
      rw [if_pos (by trivial)]
      have hsk : ∀ s f, parseMembers (f + 1) d (skipWs s) = parseMembers (f + 1) d s := by
        intro s f
        simp only [parseMembers, skipWs_twice]
      obtain ⟨f, rfl⟩ : ∃ f', f = f' + 1 := ⟨f - 1, by omega⟩
      rw [if_neg, hsk, hK _ (by omega)]
      · match kvs, ps, hne, hl with
        | v :: l, p :: ps, _, _ =>
          have hpre := (hw p (by simp)).1
          have : ∃ tl, joinComma (List.map MemberText.text (p :: ps)) ++ '}' :: rest = p.pre ++ ('"' :: tl) := by
            cases ps with
            | nil => exact ⟨_, by simp only [List.map, joinComma, MemberText.text, List.append_assoc, List.cons_append]; rfl⟩
            | cons q ps => exact ⟨_, by simp only [List.map, joinComma, MemberText.text, List.append_assoc, List.cons_append]; rfl⟩
          obtain ⟨tl, htl⟩ := this
          rw [htl, skipWs_append _ hpre, skipWs_cons (by decide)]
          simp

/-! ## What the parser accepts -/

theorem skipWs_split : ∀ (s : Str), ∃ a, Ws a ∧ s = a ++ skipWs s
  | [] => ⟨[], by simp [Ws], rfl⟩
  | c :: cs => by
    simp only [skipWs]
    split
    · rename_i hc
      obtain ⟨a, ha, he⟩ := skipWs_split cs
      refine ⟨c :: a, ?_, by rw [List.cons_append, ← he]⟩
      intro x hx
      simp only [List.mem_cons] at hx
      rcases hx with rfl | hx
      · exact isWs_iff.1 hc
      · exact ha x hx
    · exact ⟨[], by simp [Ws], rfl⟩

theorem skipWs_nil {s : Str} (h : skipWs s = []) : Ws s := by
  obtain ⟨a, ha, he⟩ := skipWs_split s
  rw [h, List.append_nil] at he
  rw [he]; exact ha

theorem stripPrefix_split : ∀ (p s : Str) {rest : Str}, stripPrefix p s = some rest → s = p ++ rest
  | [], s, rest, h => by simp [stripPrefix] at h; exact h
  | _ :: _, [], _, h => by simp [stripPrefix] at h
  | p :: ps, c :: cs, rest, h => by
    simp only [stripPrefix] at h
    split at h
    · rename_i hc
      rw [hc, stripPrefix_split ps cs h]; rfl
    · cases h

/-- a value was read, or a sign at the end of the text -/
def Value (d : Nat) (s : Str) (v : JV) (rest : Str) : Prop :=
  ∃ b, s = b ++ rest ∧ DepthLe d v ∧ (LooseJson v b ∨ (rest = [] ∧ SignOnly b ∧ v = .num b))

theorem parseNull_sound {cs rest : Str} {v : JV} (h : parseNull cs = .ok (v, rest)) {d : Nat} : Value (d + 1) ('n' :: cs) v rest := by
  unfold parseNull at h
  split at h
  · rename_i r hs
    cases h
    have := stripPrefix_split _ _ hs
    subst this
    exact ⟨str "null", rfl, .null d, Or.inl .null⟩
  · split at h
    · rename_i a b r _
      split at h
      · rename_i hc
        cases h
        refine ⟨['n', a, b], rfl, .num d _, Or.inl (.num (Or.inr ⟨[], _, rfl, Or.inl rfl, isInfNan_iff.1 ?_⟩))⟩
        simp [isInfNan, str, hc.1, hc.2, show lowerChar 'n' = 'n' by decide]
      · cases h
    · cases h

theorem parse_sound : ∀ fuel,
    (∀ d s v rest, parseValue fuel d s = .ok (v, rest) → Value d s v rest) ∧
    (∀ d s l rest, parseElems fuel d s = .ok (l, rest) → ∃ ps : List ElemText, l ≠ [] ∧ ps.length = l.length ∧ (∀ p ∈ ps, p.ws) ∧
      (∀ (i : Nat) (v : JV) (p : ElemText), l[i]? = some v → ps[i]? = some p → LooseJson v p.body) ∧
      (∀ v ∈ l, DepthLe d v) ∧ s = joinComma (ps.map ElemText.text) ++ ']' :: rest) ∧
    (∀ d s l rest, parseMembers fuel d s = .ok (l, rest) → ∃ ps : List MemberText, l ≠ [] ∧ ps.length = l.length ∧ (∀ p ∈ ps, p.ws) ∧
      (∀ (i : Nat) (kv : Str × JV) (p : MemberText), l[i]? = some kv → ps[i]? = some p → LooseStr kv.1 p.key) ∧
      (∀ (i : Nat) (kv : Str × JV) (p : MemberText), l[i]? = some kv → ps[i]? = some p → LooseJson kv.2 p.body) ∧
      (∀ kv ∈ l, DepthLe d kv.2) ∧ s = joinComma (ps.map MemberText.text) ++ '}' :: rest)
  | 0 => by simp [parseValue, parseElems, parseMembers]
  | fuel + 1 => by
    obtain ⟨hv, he, hm⟩ := parse_sound fuel
    refine ⟨?_, ?_, ?_⟩
    · intro d s v rest h
      match d, s with
      | _, [] => simp [parseValue] at h
      | 0, _ :: _ => simp [parseValue] at h
      | d + 1, c :: cs =>
        simp only [parseValue] at h
        obtain ⟨a, ha, hcs⟩ := skipWs_split cs
        split at h
        · rename_i hc
          subst hc
          split at h
          · rename_i hh
            cases h
            cases hsk : skipWs cs with
            | nil => simp [hsk] at hh
            | cons x xs =>
              simp [hsk] at hh
              subst hh
              rw [hsk] at hcs
              exact ⟨'{' :: (a ++ ['}']), by simp [hcs], .obj (by simp), Or.inl (.obj0 ha)⟩
          · split at h
            · rename_i kvs r hs
              cases h
              obtain ⟨ps, hne, hl, hw, hk, hj, hd, hsplit⟩ := hm _ _ _ _ hs
              -- the whitespace after the brace belongs to the first member
              match ps, kvs, hl, hne with
              | p :: ps, kv :: kvs, hl, _ =>
                refine ⟨'{' :: (joinComma ((({ p with pre := a ++ p.pre } : MemberText) :: ps).map MemberText.text) ++ ['}']), ?_, .obj hd, Or.inl (.obj (by simp) hl ?_ ?_ ?_)⟩
                · rw [hcs, hsplit]
                  cases ps <;> simp [joinComma, MemberText.text]
                · intro q hq
                  simp only [List.mem_cons] at hq
                  rcases hq with rfl | hq
                  · obtain ⟨h1, h2⟩ := hw p (by simp)
                    refine ⟨?_, h2⟩
                    intro x hx
                    simp only [List.mem_append] at hx
                    rcases hx with hx | hx
                    · exact ha x hx
                    · exact h1 x hx
                  · exact hw q (by simp [hq])
                · intro i kv' q h1 h2
                  cases i with
                  | zero => simp at h1 h2; subst h1; subst h2; exact hk 0 _ p rfl rfl
                  | succ i => exact hk (i + 1) kv' q h1 h2
                · intro i kv' q h1 h2
                  cases i with
                  | zero => simp at h1 h2; subst h1; subst h2; exact hj 0 _ p rfl rfl
                  | succ i => exact hj (i + 1) kv' q h1 h2
              | [], [], _, h0 => exact absurd rfl h0
            · cases h
        · split at h
          · rename_i hc
            subst hc
            split at h
            · rename_i hh
              cases h
              cases hsk : skipWs cs with
              | nil => simp [hsk] at hh
              | cons x xs =>
                simp [hsk] at hh
                subst hh
                rw [hsk] at hcs
                exact ⟨'[' :: (a ++ [']']), by simp [hcs], .arr (by simp), Or.inl (.arr0 ha)⟩
            · split at h
              · rename_i l r hs
                cases h
                obtain ⟨ps, hne, hl, hw, hj, hd, hsplit⟩ := he _ _ _ _ hs
                match ps, l, hl, hne with
                | p :: ps, v :: l, hl, _ =>
                  refine ⟨'[' :: (joinComma ((({ p with pre := a ++ p.pre } : ElemText) :: ps).map ElemText.text) ++ [']']), ?_, .arr hd, Or.inl (.arr (by simp) hl ?_ ?_)⟩
                  · rw [hcs, hsplit]
                    cases ps <;> simp [joinComma, ElemText.text]
                  · intro q hq
                    simp only [List.mem_cons] at hq
                    rcases hq with rfl | hq
                    · obtain ⟨h1, h2⟩ := hw p (by simp)
                      refine ⟨?_, h2⟩
                      intro x hx
                      simp only [List.mem_append] at hx
                      rcases hx with hx | hx
                      · exact ha x hx
                      · exact h1 x hx
                    · exact hw q (by simp [hq])
                  · intro i kv' q h1 h2
                    cases i with
                    | zero => simp at h1 h2; subst h1; subst h2; exact hj 0 _ p rfl rfl
                    | succ i => exact hj (i + 1) kv' q h1 h2
                | [], [], _, h0 => exact absurd rfl h0
              · cases h
          · split at h
            · rename_i hc
              subst hc
              split at h
              · rename_i r rest' hs
                cases h
                obtain ⟨h1, h2⟩ := rawString_sound hs
                exact ⟨'"' :: (r ++ ['"']), by simp [h1], .str d _, Or.inl (.str h2)⟩
              · cases h
            · split at h
              · rename_i hc
                subst hc
                split at h
                · rename_i r hs
                  cases h
                  have := stripPrefix_split _ _ hs
                  subst this
                  exact ⟨str "true", rfl, .bool d _, Or.inl .true⟩
                · cases h
              · split at h
                · rename_i hc
                  subst hc
                  split at h
                  · rename_i r hs
                    cases h
                    have := stripPrefix_split _ _ hs
                    subst this
                    exact ⟨str "false", rfl, .bool d _, Or.inl .false⟩
                  · cases h
                · split at h
                  · rename_i hc
                    subst hc
                    exact parseNull_sound h
                  · split at h
                    · rename_i ns r hs
                      cases h
                      obtain ⟨h1, h2⟩ := rawNumber_sound hs
                      refine ⟨ns, h1, .num d _, ?_⟩
                      rcases h2 with h2 | ⟨h2, h3⟩
                      · exact Or.inl (.num h2)
                      · exact Or.inr ⟨h2, h3, rfl⟩
                    · cases h
    · intro d s l rest h
      simp only [parseElems] at h
      obtain ⟨a, ha, hcs⟩ := skipWs_split s
      split at h
      · cases h
      · rename_i v r hs
        obtain ⟨b, hb, hd, hj⟩ := hv _ _ _ _ hs
        obtain ⟨a', ha', hcs'⟩ := skipWs_split r
        have hj : skipWs r ≠ [] → LooseJson v b := by
          intro hne
          rcases hj with hj | ⟨rfl, _⟩
          · exact hj
          · exact absurd rfl hne
        split at h
        · rename_i rest' hsk
          split at h
          · rename_i l' rest'' hs'
            cases h
            obtain ⟨ps, hne, hl, hw, hjs, hds, hsplit⟩ := he _ _ _ _ hs'
            rw [hsk] at hcs' hj
            refine ⟨⟨a, b, a'⟩ :: ps, by simp, by simp [hl], ?_, ?_, ?_, ?_⟩
            · intro p hp
              simp only [List.mem_cons] at hp
              rcases hp with rfl | hp
              · exact ⟨ha, ha'⟩
              · exact hw p hp
            · intro i v' p h1 h2
              cases i with
              | zero => simp at h1 h2; subst h1; subst h2; exact hj (by simp)
              | succ i => exact hjs i v' p h1 h2
            · intro v' hv'
              simp only [List.mem_cons] at hv'
              rcases hv' with rfl | hv'
              · exact hd
              · exact hds v' hv'
            · rw [hcs, hb, hcs', hsplit]
              match ps, l', hl, hne with
              | p :: ps, _ :: _, _, _ => simp [joinComma, ElemText.text]
              | [], [], _, h0 => exact absurd rfl h0
          · cases h
        · rename_i rest' hsk
          cases h
          rw [hsk] at hcs' hj
          refine ⟨[⟨a, b, a'⟩], by simp, by simp, ?_, ?_, ?_, ?_⟩
          · intro p hp
            simp only [List.mem_singleton] at hp
            subst hp
            exact ⟨ha, ha'⟩
          · intro i v' p h1 h2
            cases i with
            | zero => simp at h1 h2; subst h1; subst h2; exact hj (by simp)
            | succ i => simp at h1
          · intro v' hv'
            simp only [List.mem_singleton] at hv'
            subst hv'
            exact hd
          · rw [hcs, hb, hcs']
            simp [joinComma, ElemText.text]
        · cases h
    · intro d s l rest h
      simp only [parseMembers] at h
      obtain ⟨a, ha, hcs⟩ := skipWs_split s
      split at h
      · rename_i s1 hs1
        rw [hs1] at hcs
        split at h
        · cases h
        · rename_i k s2 hk
          obtain ⟨hk1, hk2⟩ := rawString_sound hk
          obtain ⟨a2, ha2, hcs2⟩ := skipWs_split s2
          split at h
          · rename_i s3 hs3
            rw [hs3] at hcs2
            obtain ⟨a3, ha3, hcs3⟩ := skipWs_split s3
            split at h
            · cases h
            · rename_i v r hs
              obtain ⟨b, hb, hd, hj⟩ := hv _ _ _ _ hs
              obtain ⟨a', ha', hcs'⟩ := skipWs_split r
              have hj : skipWs r ≠ [] → LooseJson v b := by
                intro hne
                rcases hj with hj | ⟨rfl, _⟩
                · exact hj
                · exact absurd rfl hne
              split at h
              · rename_i rest' hsk
                split at h
                · rename_i l' rest'' hs'
                  cases h
                  obtain ⟨ps, hne, hl, hw, hks, hjs, hds, hsplit⟩ := hm _ _ _ _ hs'
                  rw [hsk] at hcs' hj
                  refine ⟨⟨a, k, a2, a3, b, a'⟩ :: ps, by simp, by simp [hl], ?_, ?_, ?_, ?_, ?_⟩
                  · intro p hp
                    simp only [List.mem_cons] at hp
                    rcases hp with rfl | hp
                    · exact ⟨ha, ha2, ha3, ha'⟩
                    · exact hw p hp
                  · intro i v' p h1 h2
                    cases i with
                    | zero => simp at h1 h2; subst h1; subst h2; exact hk2
                    | succ i => exact hks i v' p h1 h2
                  · intro i v' p h1 h2
                    cases i with
                    | zero => simp at h1 h2; subst h1; subst h2; exact hj (by simp)
                    | succ i => exact hjs i v' p h1 h2
                  · intro v' hv'
                    simp only [List.mem_cons] at hv'
                    rcases hv' with rfl | hv'
                    · exact hd
                    · exact hds v' hv'
                  · rw [hcs, hk1, hcs2, hcs3, hb, hcs', hsplit]
                    match ps, l', hl, hne with
                    | p :: ps, _ :: _, _, _ => simp [joinComma, MemberText.text]
                    | [], [], _, h0 => exact absurd rfl h0
                · cases h
              · rename_i rest' hsk
                cases h
                rw [hsk] at hcs' hj
                refine ⟨[⟨a, k, a2, a3, b, a'⟩], by simp, by simp, ?_, ?_, ?_, ?_, ?_⟩
                · intro p hp
                  simp only [List.mem_singleton] at hp
                  subst hp
                  exact ⟨ha, ha2, ha3, ha'⟩
                · intro i v' p h1 h2
                  cases i with
                  | zero => simp at h1 h2; subst h1; subst h2; exact hk2
                  | succ i => simp at h1
                · intro i v' p h1 h2
                  cases i with
                  | zero => simp at h1 h2; subst h1; subst h2; exact hj (by simp)
                  | succ i => simp at h1
                · intro v' hv'
                  simp only [List.mem_singleton] at hv'
                  subst hv'
                  exact hd
                · rw [hcs, hk1, hcs2, hcs3, hb, hcs']
                  simp [joinComma, MemberText.text]
              · cases h
          · cases h
      · cases h

/-- The parser accepts exactly the loose documents, and reads them as they say. -/
theorem parseBytes_iff {v : JV} {s : Str} : parseBytes s = some v ↔ LooseDocument v s := by
  constructor
  · intro h
    unfold parseBytes at h
    split at h
    · rename_i v' rest hp
      split at h
      · rename_i hr
        cases h
        obtain ⟨a, ha, hs⟩ := skipWs_split s
        obtain ⟨b, hb, hd, hj⟩ := (parse_sound _).1 _ _ _ _ hp
        rcases hj with hj | ⟨rfl, hsg, rfl⟩
        · exact Or.inl ⟨a, b, rest, by rw [List.append_assoc, ← hb, ← hs], ha, skipWs_nil hr, hj, hd⟩
        · refine Or.inr ⟨a, b, ?_, ha, hsg, rfl⟩
          rw [List.append_nil] at hb
          rw [← hb]; exact hs
      · cases h
    · cases h
  · rintro (⟨a, b, c, rfl, ha, hc, hj, hd⟩ | ⟨a, sign, rfl, ha, hsg, rfl⟩)
    · obtain ⟨c0, cs, hb, hc0, _, _⟩ := loose_head hj
      obtain ⟨K, hK⟩ := parses_loose hj hd c (by
        intro x hx
        cases c with
        | nil => simp at hx
        | cons w ws => simp at hx; subst hx; rcases hc w (by simp) with rfl | rfl | rfl | rfl <;> decide)
      have e1 : skipWs (a ++ b ++ c) = b ++ c := by
        rw [List.append_assoc, skipWs_append _ ha, hb]
        exact skipWs_cons hc0
      have := parse_enough (fuel := 2 * (a ++ b ++ c).length + 2) (by simp; omega) (hK K (Nat.le_refl _))
      simp only [parseBytes, maxDepth, e1, this, skipWs_ws hc, if_true]
    · have e1 : skipWs (a ++ sign) = sign := by
        rw [skipWs_append _ ha]
        rcases hsg with rfl | rfl <;> decide
      unfold parseBytes
      rw [e1]
      obtain ⟨f, hf⟩ : ∃ f, 2 * (a ++ sign).length + 2 = f + 1 := ⟨_, rfl⟩
      rw [hf]
      rcases hsg with rfl | rfl <;> simp [parseValue, maxDepth, rawNumber, spanNum, isNumChar, isDigit, skipWs]

/-! ## JSON is accepted -/

theorem looseStr_text {s t : Str} (h : StrText s t) : LooseStr s t := by
  induction h with
  | nil => exact .nil
  | @cons c t s u hc _ ih =>
    cases hc with
    | raw h hq hb => exact .char hq hb ih
    | quote => exact .esc .quote ih
    | backslash => exact .esc .backslash ih
    | slash => exact .esc .slash ih
    | b => exact .esc .b ih
    | f => exact .esc .f ih
    | n => exact .esc .n ih
    | r => exact .esc .r ih
    | t => exact .esc .t ih
    | u hh => exact .esc (.u hh) ih
    | pair hh hl h1 h2 hc => exact .esc (.pair hh hl h1 h2 hc) ih

theorem looseNum_text {raw : Str} (h : NumText raw) : LooseNum raw := by
  obtain ⟨hall, c, cs, rfl, hc⟩ := numText_head h
  refine Or.inl ⟨by simp, fun x hx => isNumChar_iff.1 (hall x hx), ?_, ?_⟩
  · rintro h
    cases h
    rcases hc with hc | ⟨_, hc⟩
    · simp [isDigit] at hc
    · exact hc rfl
  · rintro h
    cases h
    rcases hc with hc | ⟨hc, _⟩
    · simp [isDigit] at hc
    · cases hc

theorem looseJson_json {v : JV} {b : Str} (h : Json v b) : LooseJson v b := by
  induction h with
  | null => exact .null
  | true => exact .true
  | false => exact .false
  | num h => exact .num (looseNum_text h)
  | str h => exact .str (looseStr_text h)
  | arr0 h => exact .arr0 h
  | obj0 h => exact .obj0 h
  | arr hne hl hw h ih => exact .arr hne hl hw ih
  | obj hne hl hw hk h ih => exact .obj hne hl hw (fun i kv p h1 h2 => looseStr_text (hk i kv p h1 h2)) ih

theorem looseDocument_document {v : JV} {s : Str} (h : Document v s) (hd : DepthLe 300 v) : LooseDocument v s := by
  obtain ⟨a, b, c, rfl, ha, hc, hj⟩ := h
  exact Or.inl ⟨a, b, c, rfl, ha, hc, looseJson_json hj, hd⟩

end VJ
