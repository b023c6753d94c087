import Verif.Proof.JsonBuild

/-!
# A reader that never stops at JSON

A small automaton that reads a text from left to right and keeps the brackets that are open.
It only looks for three things: where an object has just been opened or a comma has been read in
it, a key must follow (or the object be closed); nothing but a comma or a closing bracket may
follow `null`; and, if it is asked to (`Nans`), that there is no `N` and no `I` outside strings.
It never rejects a JSON text (`lex_json`), so that a text it rejects is not JSON.  If it does not
mind `N` and `I`, it does not even reject the texts that the parser accepts (`lex_loose`).
-/

namespace VJ

/-- does the reader mind `N` and `I` outside strings? -/
class Nans where
  reject : Bool

inductive Lex where
  /-- outside strings: the open brackets (`true` for braces) and the last character that is not
  whitespace -/
  | out (st : List Bool) (p : Char)
  | str (st : List Bool)
  | esc (st : List Bool)
  | bad

def wsChar (c : Char) : Bool := c == ' ' || c == '\t' || c == '\n' || c == '\r'

def lexOut [Nans] (st : List Bool) (p c : Char) : Lex :=
  if wsChar c then .out st p
  else if st.head? = some true ∧ (p = '{' ∨ p = ',') then
    if c = '"' then .str st else if c = '}' then .out st.tail '}' else .bad
  else if p = 'l' ∧ c ≠ 'l' ∧ c ≠ 's' ∧ c ≠ ',' ∧ c ≠ '}' ∧ c ≠ ']' then .bad
  else if c = '"' then .str st
  else if c = '{' then .out (true :: st) '{'
  else if c = '[' then .out (false :: st) '['
  else if c = '}' ∨ c = ']' then .out st.tail c
  else if (c = 'N' ∨ c = 'I') ∧ Nans.reject = true then .bad
  else .out st c

def lex1 [Nans] : Lex → Char → Lex
  | .bad, _ => .bad
  | .esc st, _ => .str st
  | .str st, c => if c = '"' then .out st '"' else if c = '\\' then .esc st else .str st
  | .out st p, c => lexOut st p c

def lex [Nans] (l : Lex) (s : Str) : Lex := s.foldl lex1 l

variable [Nans]

theorem lex_append (l : Lex) (s t : Str) : lex l (s ++ t) = lex (lex l s) t := List.foldl_append ..
theorem lex_cons (l : Lex) (c : Char) (s : Str) : lex l (c :: s) = lex (lex1 l c) s := rfl
theorem lex_nil (l : Lex) : lex l [] = l := rfl

theorem lex_bad : ∀ s, lex .bad s = .bad
  | [] => rfl
  | c :: s => by rw [lex_cons]; exact lex_bad s

theorem lex_ws {st : List Bool} {p : Char} : ∀ {s : Str}, Ws s → lex (.out st p) s = .out st p
  | [], _ => rfl
  | c :: s, h => by
    have hc : wsChar c = true := by
      rcases h c (by simp) with rfl | rfl | rfl | rfl <;> rfl
    rw [lex_cons, show lex1 (.out st p) c = .out st p by simp [lex1, lexOut, hc]]
    exact lex_ws fun c hc => h c (by simp [hc])

/-- a value may begin here -/
def Start (st : List Bool) (p : Char) : Prop := ¬ (st.head? = some true ∧ (p = '{' ∨ p = ',')) ∧ p ≠ 'l'

/-- characters of numbers, and of the literals before the last two of `null` -/
def Word (c : Char) : Prop := wsChar c = false ∧ c ≠ '"' ∧ c ≠ '{' ∧ c ≠ '[' ∧ c ≠ '}' ∧ c ≠ ']' ∧ c ≠ ',' ∧ c ≠ 'l' ∧ c ≠ 'N' ∧ c ≠ 'I'

theorem lex_word1 {st : List Bool} {p c : Char} (h : Start st p) (hc : Word c) : lex1 (.out st p) c = .out st c := by
  obtain ⟨h1, h2, h3, h4, h5, h6, h7, h8, h9, h10⟩ := hc
  have h' := h.1
  simp only [lex1, lexOut, h1, Bool.false_eq_true, if_false, if_neg h', h.2, false_and, h2, h3, h4, h5, h6, h9, h10, or_self, false_and]

omit [Nans] in
theorem Word.start {st : List Bool} {c : Char} (h : Word c) : Start st c :=
  ⟨fun ⟨_, h'⟩ => h'.elim h.2.2.1 h.2.2.2.2.2.2.1, h.2.2.2.2.2.2.2.1⟩

/-- after a value -/
def Shut (p : Char) : Prop := p ≠ '{' ∧ p ≠ ','

omit [Nans] in
theorem Word.shut {c : Char} (h : Word c) : Shut c := ⟨h.2.2.1, h.2.2.2.2.2.2.1⟩

theorem lex_words {st : List Bool} : ∀ {s : Str} {p : Char}, Start st p → s ≠ [] → (∀ c ∈ s, Word c) →
    ∃ q, Word q ∧ lex (.out st p) s = .out st q
  | [], _, _, h, _ => absurd rfl h
  | [c], p, hp, _, h => ⟨c, h c (by simp), lex_word1 hp (h c (by simp))⟩
  | c :: d :: s, p, hp, _, h => by
    rw [lex_cons, lex_word1 hp (h c (by simp))]
    exact lex_words (h c (by simp)).start (by simp) fun e he => h e (by simp [he])

omit [Nans] in
theorem digit_word {d : Nat} (h : d < 10) : Word (Char.ofNat (48 + d)) := by
  have : ∀ d < 10, Word (Char.ofNat (48 + d)) := by unfold Word; decide
  exact this d h

omit [Nans] in
theorem digits_word {s : Str} (h : Digits s) : ∀ c ∈ s, Word c := by
  intro c hc
  obtain ⟨d, hd, rfl⟩ := h.2 c hc
  exact digit_word hd

omit [Nans] in
theorem num_chars {P : Char → Prop} (hd : ∀ d < 10, P (Char.ofNat (48 + d))) (w : ∀ c ∈ ['-', '+', '.', 'e', 'E', '0'], P c) {s : Str}
    (h : NumText s) : ∀ c ∈ s, P c := by
  have ds : ∀ {s : Str}, Digits s → ∀ c ∈ s, P c := by
    intro s h c hc
    obtain ⟨d, h1, rfl⟩ := h.2 c hc
    exact hd d h1
  cases h with
  | mk hs hi hf he =>
    intro c hc
    simp only [List.mem_append] at hc
    rcases hc with ((hc | hc) | hc) | hc
    · rcases hs with rfl | rfl
      · cases hc
      · exact w c (by simp_all)
    · rcases hi with rfl | hi
      · exact w c (by simp_all)
      · exact ds hi.1 c hc
    · rcases hf with rfl | ⟨_, rfl, hd⟩
      · cases hc
      · rcases List.mem_cons.1 hc with rfl | hc
        · exact w _ (by simp)
        · exact ds hd c hc
    · rcases he with rfl | ⟨e, sg, _, rfl, h1, h2, hd⟩
      · cases hc
      · simp only [List.cons_append, List.mem_cons, List.mem_append] at hc
        rcases hc with rfl | hc | hc
        · exact w _ (by rcases h1 with rfl | rfl <;> simp)
        · exact w _ (by rcases h2 with rfl | rfl | rfl <;> simp_all)
        · exact ds hd c hc

omit [Nans] in
theorem num_not_s {s : Str} (h : NumText s) : ∀ c ∈ s, c ≠ 's' := num_chars (P := (· ≠ 's')) (by decide) (by decide) h

omit [Nans] in
theorem num_word {s : Str} (h : NumText s) : s ≠ [] ∧ ∀ c ∈ s, Word c := by
  have w : ∀ c ∈ ['-', '+', '.', 'e', 'E', '0'], Word c := by unfold Word; decide
  cases h with
  | mk hs hi hf he =>
    constructor
    · rcases hi with rfl | hi
      · simp
      · simp [hi.1.1]
    · intro c hc
      simp only [List.mem_append] at hc
      rcases hc with ((hc | hc) | hc) | hc
      · rcases hs with rfl | rfl
        · cases hc
        · exact w c (by simp_all)
      · rcases hi with rfl | hi
        · exact w c (by simp_all)
        · exact digits_word hi.1 c hc
      · rcases hf with rfl | ⟨ds, rfl, hd⟩
        · cases hc
        · rcases List.mem_cons.1 hc with rfl | hc
          · exact w _ (by simp)
          · exact digits_word hd c hc
      · rcases he with rfl | ⟨e, sg, ds, rfl, h1, h2, hd⟩
        · cases hc
        · simp only [List.cons_append, List.mem_cons, List.mem_append] at hc
          rcases hc with rfl | hc | hc
          · exact w _ (by rcases h1 with rfl | rfl <;> simp)
          · exact w _ (by rcases h2 with rfl | rfl | rfl <;> simp_all)
          · exact digits_word hd c hc

omit [Nans] in
theorem hex_plain {c : Char} {x : Nat} (h : HexDigit c x) : c ≠ '"' ∧ c ≠ '\\' := by
  have k1 : ∀ d < 10, Char.ofNat (48 + d) ≠ '"' ∧ Char.ofNat (48 + d) ≠ '\\' := by decide
  have k2 : ∀ d < 6, Char.ofNat (97 + d) ≠ '"' ∧ Char.ofNat (97 + d) ≠ '\\' := by decide
  have k3 : ∀ d < 6, Char.ofNat (65 + d) ≠ '"' ∧ Char.ofNat (65 + d) ≠ '\\' := by decide
  cases h with
  | digit h => exact k1 _ h
  | lower h => exact k2 _ h
  | upper h => exact k3 _ h

theorem lex_str1 {st : List Bool} {c : Char} (h1 : c ≠ '"') (h2 : c ≠ '\\') : lex1 (.str st) c = .str st := by
  simp [lex1, h1, h2]

theorem lex_esc {st : List Bool} (c : Char) (s : Str) : lex (.str st) ('\\' :: c :: s) = lex (.str st) s := by
  rw [lex_cons, lex_cons]; rfl

theorem lex_hex {st : List Bool} {h s : Str} {n : Nat} (hh : Hex4 h n) : lex (.str st) (h ++ s) = lex (.str st) s := by
  cases hh with
  | mk ha hb hc hd =>
    simp only [List.cons_append, List.nil_append, lex_cons, lex_str1 (hex_plain ha).1 (hex_plain ha).2,
      lex_str1 (hex_plain hb).1 (hex_plain hb).2, lex_str1 (hex_plain hc).1 (hex_plain hc).2, lex_str1 (hex_plain hd).1 (hex_plain hd).2]

theorem lex_char {st : List Bool} {c : Char} {t s : Str} (h : CharText c t) : lex (.str st) (t ++ s) = lex (.str st) s := by
  cases h with
  | raw _ hq hb => rw [List.cons_append, lex_cons, lex_str1 hq hb]; rfl
  | u hh => rw [List.cons_append, List.cons_append, lex_esc, lex_hex hh]
  | pair hh hl =>
    simp only [List.cons_append, List.append_assoc]
    rw [lex_esc, lex_hex hh, lex_esc, lex_hex hl]
  | _ => exact lex_esc _ _

theorem lex_strText {st : List Bool} {s t : Str} (h : StrText s t) (u : Str) : lex (.str st) (t ++ u) = lex (.str st) u := by
  induction h with
  | nil => rfl
  | cons h _ ih => rw [List.append_assoc, lex_char h, ih]

theorem lex_key {st : List Bool} {p : Char} {s t u : Str} (hp : st.head? = some true ∧ (p = '{' ∨ p = ',')) (h : StrText s t) :
    lex (.out st p) ('"' :: (t ++ '"' :: u)) = lex (.out st '"') u := by
  have h1 : lex1 (.out st p) '"' = .str st := by
    simp only [lex1]; unfold lexOut
    rw [if_neg (by decide), if_pos hp]; rfl
  rw [lex_cons, h1, lex_strText h, lex_cons]; rfl

theorem lex_string {st : List Bool} {p : Char} {s t : Str} (hp : Start st p) (h : StrText s t) :
    lex (.out st p) ('"' :: (t ++ ['"'])) = .out st '"' := by
  have h1 : lex1 (.out st p) '"' = .str st := by
    simp only [lex1]; unfold lexOut
    rw [if_neg (by decide), if_neg hp.1, if_neg (fun h => hp.2 h.1)]; rfl
  rw [lex_cons, h1, lex_strText h, lex_cons]; rfl

theorem lex_open {st : List Bool} {p : Char} (hp : Start st p) : lex1 (.out st p) '{' = .out (true :: st) '{' ∧
    lex1 (.out st p) '[' = .out (false :: st) '[' := by
  constructor <;>
    (simp only [lex1]; unfold lexOut
     rw [if_neg (by decide), if_neg hp.1, if_neg (fun h => hp.2 h.1)]; rfl)

theorem lex_close {st : List Bool} {b : Bool} {p : Char} {c : Char} (hp : Shut p ∨ b = false ∨ c = '}') (hc : c = '}' ∨ c = ']') :
    lex1 (.out (b :: st) p) c = .out st c := by
  simp only [lex1]; unfold lexOut
  have h1 : ¬ wsChar c = true := by rcases hc with rfl | rfl <;> decide
  rw [if_neg h1]
  split
  · rename_i h
    rcases hp with hp | rfl | rfl
    · rcases h.2 with h | h
      · exact absurd h hp.1
      · exact absurd h hp.2
    · simp at h
    · rfl
  · rw [if_neg (by rcases hc with rfl | rfl <;> simp), if_neg (by rcases hc with rfl | rfl <;> decide),
      if_neg (by rcases hc with rfl | rfl <;> decide), if_neg (by rcases hc with rfl | rfl <;> decide)]
    simp

theorem lex_comma {st : List Bool} {p : Char} (hp : Shut p ∨ st.head? ≠ some true) : lex1 (.out st p) ',' = .out st ',' := by
  simp only [lex1]; unfold lexOut
  rw [if_neg (by decide), if_neg (by
    rintro ⟨h1, h2⟩
    rcases hp with hp | hp
    · exact h2.elim hp.1 hp.2
    · exact hp h1), if_neg (by simp)]
  rfl

theorem lex_colon {st : List Bool} : lex1 (.out st '"') ':' = .out st ':' := by
  simp [lex1, lexOut, wsChar]

omit [Nans] in
theorem colon_start (st : List Bool) : Start st ':' := by simp [Start]

/-- reading a value -/
def Passes (s : Str) : Prop := ∀ st p, Start st p → ∃ q, Shut q ∧ lex (.out st p) s = .out st q

theorem lex_member {st : List Bool} {p : Char} (hp : p = '{' ∨ p = ',') {m : MemberText} (hw : m.ws) {k : Str} (hk : StrText k m.key)
    (hb : Passes m.body) : ∃ q, Shut q ∧ lex (.out (true :: st) p) m.text = .out (true :: st) q := by
  obtain ⟨w1, w2, w3, w4⟩ := hw
  unfold MemberText.text
  rw [lex_append, lex_ws w1, lex_key ⟨rfl, hp⟩ hk, lex_append, lex_ws w2, lex_cons, lex_colon, lex_append, lex_ws w3, lex_append]
  obtain ⟨q, hq, h⟩ := hb _ _ (colon_start (true :: st))
  exact ⟨q, hq, by rw [h, lex_ws w4]⟩

theorem lex_commaed {st : List Bool} {P : Str → Prop} (hP : ∀ t p, P t → p = '{' ∨ p = ',' → ∃ q, Shut q ∧ lex (.out (true :: st) p) t = .out (true :: st) q) :
    ∀ {ts : List Str} {p : Char}, Shut p → (∀ t ∈ ts, P t) → ∃ q, Shut q ∧ lex (.out (true :: st) p) (commaed ts) = .out (true :: st) q
  | [], p, hp, _ => ⟨p, hp, rfl⟩
  | t :: ts, p, hp, h => by
    rw [commaed, lex_cons, lex_comma (.inl hp), lex_append]
    obtain ⟨q, hq, h1⟩ := hP t ',' (h t (by simp)) (.inr rfl)
    rw [h1]
    exact lex_commaed hP hq fun t ht => h t (by simp [ht])

theorem lex_elems {st : List Bool} : ∀ {ts : List Str} {p : Char}, (∀ t ∈ ts, ∃ a b c, t = a ++ b ++ c ∧ Ws a ∧ Ws c ∧ Passes b) →
    ∃ q, lex (.out (false :: st) p) (commaed ts) = .out (false :: st) q
  | [], p, _ => ⟨p, rfl⟩
  | t :: ts, p, h => by
    obtain ⟨a, b, c, rfl, ha, hc, hb⟩ := h t (by simp)
    rw [commaed, lex_cons, lex_comma (.inr (by simp)), lex_append, lex_append, lex_append, lex_ws ha]
    obtain ⟨q, hq, h1⟩ := hb (false :: st) ',' ⟨by simp, by decide⟩
    rw [h1, lex_ws hc]
    exact lex_elems fun t ht => h t (by simp [ht])

theorem lex_json {v : JV} {s : Str} (h : Json v s) : Passes s := by
  have wd : ∀ c ∈ ['n', 'u', 't', 'r', 'e', 'f', 'a', 's'], Word c := by unfold Word; decide
  have hl : ∀ {st : List Bool} {p : Char}, Start st p → lex1 (.out st p) 'l' = .out st 'l' := by
    intro st p hp
    simp only [lex1]; unfold lexOut
    rw [if_neg (by decide), if_neg hp.1, if_neg (fun h => hp.2 h.1)]; rfl
  induction h with
  | null =>
    intro st p hp
    refine ⟨'l', by simp [Shut], ?_⟩
    rw [show str "null" = ['n', 'u', 'l', 'l'] from rfl, lex_cons, lex_word1 hp (wd _ (by simp)), lex_cons,
      lex_word1 (wd _ (by simp)).start (wd _ (by simp)), lex_cons, hl (wd _ (by simp)).start, lex_cons]
    simp [lex1, lexOut, wsChar, lex_nil]
  | true =>
    intro st p hp
    obtain ⟨q, hq, h⟩ := lex_words hp (s := str "true") (by decide) (fun c hc => wd c (by revert c; decide))
    exact ⟨q, hq.shut, h⟩
  | false =>
    intro st p hp
    refine ⟨'e', by simp [Shut], ?_⟩
    rw [show str "false" = ['f', 'a', 'l', 's', 'e'] from rfl, lex_cons, lex_word1 hp (wd _ (by simp)), lex_cons,
      lex_word1 (wd _ (by simp)).start (wd _ (by simp)), lex_cons, hl (wd _ (by simp)).start, lex_cons]
    simp [lex1, lexOut, wsChar, lex_nil, lex_cons]
  | num h =>
    intro st p hp
    obtain ⟨q, hq, h⟩ := lex_words hp (num_word h).1 (num_word h).2
    exact ⟨q, hq.shut, h⟩
  | str h => exact fun st p hp => ⟨'"', by simp [Shut], lex_string hp h⟩
  | arr0 h =>
    intro st p hp
    refine ⟨']', by simp [Shut], ?_⟩
    rw [lex_cons, (lex_open hp).2, lex_append, lex_ws h, lex_cons, lex_close (.inr (.inl rfl)) (.inr rfl), lex_nil]
  | @arr l ps hne hlen hw _ ih =>
    intro st p hp
    refine ⟨']', by simp [Shut], ?_⟩
    have hps : ∀ p ∈ ps, Passes p.body := by
      intro p hm
      obtain ⟨i, hi, rfl⟩ := List.getElem_of_mem hm
      exact ih i _ _ (List.getElem?_eq_getElem (hlen ▸ hi)) (List.getElem?_eq_getElem hi)
    rw [lex_cons, (lex_open hp).2, lex_append]
    cases ps with
    | nil => exact absurd (List.length_eq_zero_iff.1 hlen.symm) hne
    | cons e ps =>
      rw [List.map_cons, joinComma_cons, lex_append]
      unfold ElemText.text
      obtain ⟨q, -, h1⟩ := hps e (by simp) (false :: st) '[' ⟨by simp, by decide⟩
      rw [lex_append, lex_append, lex_ws (hw e (by simp)).1, h1, lex_ws (hw e (by simp)).2]
      obtain ⟨q', h2⟩ := lex_elems (st := st) (ts := ps.map ElemText.text) (p := q) (by
        intro t ht
        obtain ⟨x, hx, rfl⟩ := List.mem_map.1 ht
        exact ⟨_, _, _, rfl, (hw x (by simp [hx])).1, (hw x (by simp [hx])).2, hps x (by simp [hx])⟩)
      rw [show (ps.map fun p => p.pre ++ p.body ++ p.post) = ps.map ElemText.text from rfl, h2, lex_cons,
        lex_close (.inr (.inl rfl)) (.inr rfl), lex_nil]
  | obj0 h =>
    intro st p hp
    refine ⟨'}', by simp [Shut], ?_⟩
    rw [lex_cons, (lex_open hp).1, lex_append, lex_ws h, lex_cons, lex_close (.inr (.inr rfl)) (.inl rfl), lex_nil]
  | @obj kvs ps hne hlen hw hk _ ih =>
    intro st p hp
    refine ⟨'}', by simp [Shut], ?_⟩
    have hps : ∀ m ∈ ps, ∀ p, p = '{' ∨ p = ',' → ∃ q, Shut q ∧ lex (.out (true :: st) p) m.text = .out (true :: st) q := by
      intro m hm p hp
      have hwm := hw m hm
      obtain ⟨i, hi, rfl⟩ := List.getElem_of_mem hm
      exact lex_member hp hwm (hk i _ _ (List.getElem?_eq_getElem (hlen ▸ hi)) (List.getElem?_eq_getElem hi))
        (ih i _ _ (List.getElem?_eq_getElem (hlen ▸ hi)) (List.getElem?_eq_getElem hi))
    rw [lex_cons, (lex_open hp).1, lex_append]
    cases ps with
    | nil => exact absurd (List.length_eq_zero_iff.1 hlen.symm) hne
    | cons e ps =>
      rw [List.map_cons, joinComma_cons, lex_append]
      obtain ⟨q, hq, h1⟩ := hps e (by simp) '{' (.inl rfl)
      rw [h1]
      obtain ⟨q', hq', h2⟩ := lex_commaed (st := st) (P := fun t => ∃ m ∈ ps, t = m.text) (ts := ps.map MemberText.text)
        (by rintro t p ⟨m, hm, rfl⟩ hp; exact hps m (by simp [hm]) p hp) hq (by
        intro t ht
        obtain ⟨x, hx, rfl⟩ := List.mem_map.1 ht
        exact ⟨x, hx, rfl⟩)
      rw [h2, lex_cons, lex_close (.inl hq') (.inl rfl), lex_nil]

/-- a text the reader rejects wherever a value may begin -/
def Rejected (s : Str) : Prop := ∀ st p, Start st p → lex (.out st p) s = .bad

theorem Rejected.not_json {s : Str} (h : Rejected s) : ¬ ∃ jv, Document jv s := by
  rintro ⟨jv, a, b, c, rfl, ha, hc, hj⟩
  have h1 := h [] ':' (colon_start [])
  rw [lex_append, lex_append, lex_ws ha] at h1
  obtain ⟨q, _, h2⟩ := lex_json hj [] ':' (colon_start [])
  rw [h2, lex_ws hc] at h1
  cases h1

end VJ
