import Verif.Proof.Lexer
import Verif.Spec.LooseText

/-!
# The reader that does not mind words accepts what the parser accepts
-/

namespace VJ

variable [Nans]

theorem lex_looseStr {st : List Bool} {s t : Str} (h : LooseStr s t) : ∀ u : Str, lex (.str st) (t ++ u) = lex (.str st) u := by
  induction h with
  | nil => exact fun u => rfl
  | char hq hb _ ih => intro u; rw [List.cons_append, lex_cons, lex_str1 hq hb]; exact ih u
  | esc h _ ih => intro u; rw [List.append_assoc, lex_char h]; exact ih u
  | unknown _ _ ih => intro u; rw [List.cons_append, List.cons_append, lex_esc]; exact ih u
  | noHex _ _ ih => intro u; rw [List.cons_append, List.cons_append, lex_esc]; exact ih u
  | alone hh _ _ _ ih => intro u; simp only [List.cons_append, List.append_assoc]; rw [lex_esc, lex_hex hh]; exact ih u
  | noPair hh _ hl _ _ ih =>
    intro u
    simp only [List.cons_append, List.append_assoc]
    rw [lex_esc, lex_hex hh, lex_esc, lex_hex hl]
    exact ih u

theorem lex_looseKey {st : List Bool} {p : Char} {s t u : Str} (hp : st.head? = some true ∧ (p = '{' ∨ p = ',')) (h : LooseStr s t) :
    lex (.out st p) ('"' :: (t ++ '"' :: u)) = lex (.out st '"') u := by
  have h1 : lex1 (.out st p) '"' = .str st := by
    simp only [lex1]; unfold lexOut
    rw [if_neg (by decide), if_pos hp]; rfl
  rw [lex_cons, h1, lex_looseStr h, lex_cons]; rfl

theorem lex_looseString {st : List Bool} {p : Char} {s t : Str} (hp : Start st p) (h : LooseStr s t) :
    lex (.out st p) ('"' :: (t ++ ['"'])) = .out st '"' := by
  have h1 : lex1 (.out st p) '"' = .str st := by
    simp only [lex1]; unfold lexOut
    rw [if_neg (by decide), if_neg hp.1, if_neg (fun h => hp.2 h.1)]; rfl
  rw [lex_cons, h1, lex_looseStr h, lex_cons]; rfl

theorem lex_looseMember {st : List Bool} {p : Char} (hp : p = '{' ∨ p = ',') {m : MemberText} (hw : m.ws) {k : Str} (hk : LooseStr k m.key)
    (hb : Passes m.body) : ∃ q, Shut q ∧ lex (.out (true :: st) p) m.text = .out (true :: st) q := by
  obtain ⟨w1, w2, w3, w4⟩ := hw
  unfold MemberText.text
  rw [lex_append, lex_ws w1, lex_looseKey ⟨rfl, hp⟩ hk, lex_append, lex_ws w2, lex_cons, lex_colon, lex_append, lex_ws w3, lex_append]
  obtain ⟨q, hq, h⟩ := hb _ _ (colon_start (true :: st))
  exact ⟨q, hq, by rw [h, lex_ws w4]⟩

/-- characters of what passes for a number -/
def LooseWord (c : Char) : Prop := wsChar c = false ∧ c ≠ '"' ∧ c ≠ '{' ∧ c ≠ '[' ∧ c ≠ '}' ∧ c ≠ ']' ∧ c ≠ ',' ∧ c ≠ 'l'

theorem lex_looseWord1 (hr : Nans.reject = false) {st : List Bool} {p c : Char} (h : Start st p) (hc : LooseWord c) :
    lex1 (.out st p) c = .out st c := by
  obtain ⟨h1, h2, h3, h4, h5, h6, h7, h8⟩ := hc
  have h' := h.1
  simp only [lex1, lexOut, h1, Bool.false_eq_true, if_false, if_neg h', h.2, false_and, h2, h3, h4, h5, h6, or_self, hr, and_false]

omit [Nans] in
theorem LooseWord.start {st : List Bool} {c : Char} (h : LooseWord c) : Start st c :=
  ⟨fun ⟨_, h'⟩ => h'.elim h.2.2.1 h.2.2.2.2.2.2.1, h.2.2.2.2.2.2.2⟩

omit [Nans] in
theorem LooseWord.shut {c : Char} (h : LooseWord c) : Shut c := ⟨h.2.2.1, h.2.2.2.2.2.2.1⟩

theorem lex_looseWords (hr : Nans.reject = false) {st : List Bool} : ∀ {s : Str} {p : Char}, Start st p → s ≠ [] → (∀ c ∈ s, LooseWord c) →
    ∃ q, LooseWord q ∧ lex (.out st p) s = .out st q
  | [], _, _, h, _ => absurd rfl h
  | [c], p, hp, _, h => ⟨c, h c (by simp), lex_looseWord1 hr hp (h c (by simp))⟩
  | c :: d :: s, p, hp, _, h => by
    rw [lex_cons, lex_looseWord1 hr hp (h c (by simp))]
    exact lex_looseWords hr (h c (by simp)).start (by simp) fun e he => h e (by simp [he])

omit [Nans] in
theorem looseNum_words {s : Str} (h : LooseNum s) : s ≠ [] ∧ ∀ c ∈ s, LooseWord c := by
  have hd : ∀ d < 10, LooseWord (Char.ofNat (48 + d)) := by unfold LooseWord; decide
  have hw : ∀ c ∈ str "+-.eEiInNfFaA", LooseWord c := by unfold LooseWord; decide
  rcases h with ⟨h1, h2, -⟩ | ⟨sign, n, rfl, hs, a, b, c, rfl, hn⟩
  · refine ⟨h1, fun c hc => ?_⟩
    rcases h2 c hc with ⟨d, h3, rfl⟩ | h3
    · exact hd d h3
    · refine hw c ?_
      have : ∀ c ∈ str "+-.eE", c ∈ str "+-.eEiInNfFaA" := by decide
      exact this c h3
  · refine ⟨by simp, fun x hx => hw x ?_⟩
    rcases List.mem_append.1 hx with hx | hx
    · rcases hs with rfl | rfl | rfl
      · cases hx
      · cases List.mem_singleton.1 hx; decide
      · cases List.mem_singleton.1 hx; decide
    · have hi : ∀ c ∈ str "iI", c ∈ str "+-.eEiInNfFaA" := by decide
      have hn' : ∀ c ∈ str "nN", c ∈ str "+-.eEiInNfFaA" := by decide
      have hf : ∀ c ∈ str "fF", c ∈ str "+-.eEiInNfFaA" := by decide
      have ha : ∀ c ∈ str "aA", c ∈ str "+-.eEiInNfFaA" := by decide
      simp only [List.mem_cons, List.not_mem_nil, or_false] at hx
      rcases hn with ⟨h1, h2, h3⟩ | ⟨h1, h2, h3⟩ <;> rcases hx with rfl | rfl | rfl
      · exact hi _ h1
      · exact hn' _ h2
      · exact hf _ h3
      · exact hn' _ h1
      · exact ha _ h2
      · exact hn' _ h3

theorem lex_loose (hr : Nans.reject = false) {v : JV} {s : Str} (h : LooseJson v s) : Passes s := by
  induction h with
  | null => exact lex_json .null
  | true => exact lex_json .true
  | false => exact lex_json .false
  | num h =>
    intro st p hp
    obtain ⟨q, hq, h⟩ := lex_looseWords hr hp (looseNum_words h).1 (looseNum_words h).2
    exact ⟨q, hq.shut, h⟩
  | str h => exact fun st p hp => ⟨'"', by simp [Shut], lex_looseString hp h⟩
  | arr0 h => exact lex_json (.arr0 h)
  | @arr l ps hne hlen hw _ ih =>
    intro st p hp
    refine ⟨']', by simp [Shut], ?_⟩
    have hps : ∀ p ∈ ps, Passes p.body := by
      intro p hm
      obtain ⟨i, hi, rfl⟩ := List.getElem_of_mem hm
      exact ih i _ _ (List.getElem?_eq_getElem (hlen ▸ hi)) (List.getElem?_eq_getElem hi)
    rw [lex_cons, (lex_open hp).2, lex_append]
    cases ps with
    | nil => exact absurd (List.length_eq_zero_iff.1 hlen.symm) hne
    | cons e ps =>
      rw [List.map_cons, joinComma_cons, lex_append]
      unfold ElemText.text
      obtain ⟨q, -, h1⟩ := hps e (by simp) (false :: st) '[' ⟨by simp, by decide⟩
      rw [lex_append, lex_append, lex_ws (hw e (by simp)).1, h1, lex_ws (hw e (by simp)).2]
      obtain ⟨q', h2⟩ := lex_elems (st := st) (ts := ps.map ElemText.text) (p := q) (by
        intro t ht
        obtain ⟨x, hx, rfl⟩ := List.mem_map.1 ht
        exact ⟨_, _, _, rfl, (hw x (by simp [hx])).1, (hw x (by simp [hx])).2, hps x (by simp [hx])⟩)
      rw [show (ps.map fun p => p.pre ++ p.body ++ p.post) = ps.map ElemText.text from rfl, h2, lex_cons,
        lex_close (.inr (.inl rfl)) (.inr rfl), lex_nil]
  | obj0 h => exact lex_json (.obj0 h)
  | @obj kvs ps hne hlen hw hk _ ih =>
    intro st p hp
    refine ⟨'}', by simp [Shut], ?_⟩
    have hps : ∀ m ∈ ps, ∀ p, p = '{' ∨ p = ',' → ∃ q, Shut q ∧ lex (.out (true :: st) p) m.text = .out (true :: st) q := by
      intro m hm p hp
      have hwm := hw m hm
      obtain ⟨i, hi, rfl⟩ := List.getElem_of_mem hm
      exact lex_looseMember hp hwm (hk i _ _ (List.getElem?_eq_getElem (hlen ▸ hi)) (List.getElem?_eq_getElem hi))
        (ih i _ _ (List.getElem?_eq_getElem (hlen ▸ hi)) (List.getElem?_eq_getElem hi))
    rw [lex_cons, (lex_open hp).1, lex_append]
    cases ps with
    | nil => exact absurd (List.length_eq_zero_iff.1 hlen.symm) hne
    | cons e ps =>
      rw [List.map_cons, joinComma_cons, lex_append]
      obtain ⟨q, hq, h1⟩ := hps e (by simp) '{' (.inl rfl)
      rw [h1]
      obtain ⟨q', hq', h2⟩ := lex_commaed (st := st) (P := fun t => ∃ m ∈ ps, t = m.text) (ts := ps.map MemberText.text)
        (by rintro t p ⟨m, hm, rfl⟩ hp; exact hps m (by simp [hm]) p hp) hq (by
        intro t ht
        obtain ⟨x, hx, rfl⟩ := List.mem_map.1 ht
        exact ⟨x, hx, rfl⟩)
      rw [h2, lex_cons, lex_close (.inl hq') (.inl rfl), lex_nil]

theorem Rejected.not_loose (hr : Nans.reject = false) {s : Str} (h : Rejected s) : ¬ ∃ jv, LooseDocument jv s := by
  rintro ⟨jv, ⟨a, b, c, rfl, ha, hc, hj, -⟩ | ⟨a, sign, rfl, ha, hs, rfl⟩⟩
  · have h1 := h [] ':' (colon_start [])
    rw [lex_append, lex_append, lex_ws ha] at h1
    obtain ⟨q, _, h2⟩ := lex_loose hr hj [] ':' (colon_start [])
    rw [h2, lex_ws hc] at h1
    cases h1
  · have h1 := h [] ':' (colon_start [])
    have hw : ∀ c ∈ ['-', '+'], LooseWord c := by unfold LooseWord; decide
    rw [lex_append, lex_ws ha] at h1
    rcases hs with rfl | rfl <;>
    · rw [lex_cons, lex_looseWord1 hr (colon_start []) (hw _ (by simp)), lex_nil] at h1
      cases h1

end VJ
