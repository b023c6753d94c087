import Verif.Proof.Codecs
import Verif.Proof.NamedDecode

/-!
# What a refused base64 text leaves behind
-/

namespace VJ.Codecs

/-- The bytes written are those of the longest beginning of the text that is base64. -/
theorem b64DecodeQ_prefix : ∀ (n : Nat) (s : Str), s.length ≤ n →
    ∃ pre, pre <+: s ∧ b64DecodeQ pre = ((b64DecodeQ s).1, true) ∧
      ∀ pre', pre' <+: s → (b64DecodeQ pre').2 = true → pre'.length ≤ pre.length := by
  have short : ∀ (s : Str), (b64DecodeQ s).2 = true → s.length < 4 → s = [] := by
    intro s h hs
    match s, h, hs with
    | [], _, _ => rfl
    | [_], h, _ => simp [b64DecodeQ] at h
    | [_, _], h, _ => simp [b64DecodeQ] at h
    | [_, _, _], h, _ => simp [b64DecodeQ] at h
    | _ :: _ :: _ :: _ :: _, _, hs => simp at hs; omega
  have four : ∀ {s : Str} {a b c d : Char} {rest : Str}, s <+: a :: b :: c :: d :: rest → s.length < 4 ∨
      ∃ r, s = a :: b :: c :: d :: r ∧ r <+: rest := by
    intro s a b c d rest h
    match s, h with
    | [], _ => exact Or.inl (by simp)
    | [_], _ => exact Or.inl (by simp)
    | [_, _], _ => exact Or.inl (by simp)
    | [_, _, _], _ => exact Or.inl (by simp)
    | _ :: _ :: _ :: _ :: r, h =>
      simp only [List.cons_prefix_cons] at h
      obtain ⟨rfl, rfl, rfl, rfl, hr⟩ := h
      exact Or.inr ⟨r, rfl, hr⟩
  intro n
  induction n with
  | zero =>
    intro s hs
    have : s = [] := List.length_eq_zero_iff.1 (by omega)
    subst this
    exact ⟨[], List.prefix_refl _, rfl, fun pre' h _ => h.length_le⟩
  | succ n ih =>
    intro s hs
    match s, hs with
    | [], _ => exact ⟨[], List.prefix_refl _, rfl, fun pre' h _ => h.length_le⟩
    | [a], _ =>
      exact ⟨[], List.nil_prefix, rfl, fun pre' h ht => by rw [short _ ht (by have := h.length_le; simp at this; omega)]; simp⟩
    | [a, b], _ =>
      exact ⟨[], List.nil_prefix, rfl, fun pre' h ht => by rw [short _ ht (by have := h.length_le; simp at this; omega)]; simp⟩
    | [a, b, c], _ =>
      exact ⟨[], List.nil_prefix, rfl, fun pre' h ht => by rw [short _ ht (by have := h.length_le; simp at this; omega)]; simp⟩
    | a :: b :: c :: d :: rest, hs =>
      -- the quantum is wrong
      have wrong : (∀ r, b64DecodeQ (a :: b :: c :: d :: r) = ([], false)) →
          ∃ pre, pre <+: a :: b :: c :: d :: rest ∧ b64DecodeQ pre = ((b64DecodeQ (a :: b :: c :: d :: rest)).1, true) ∧
            ∀ pre', pre' <+: a :: b :: c :: d :: rest → (b64DecodeQ pre').2 = true → pre'.length ≤ pre.length := by
        intro h
        refine ⟨[], List.nil_prefix, by rw [h]; rfl, fun pre' hp ht => ?_⟩
        rcases four hp with h4 | ⟨r, rfl, _⟩
        · rw [short _ ht h4]; simp
        · rw [h] at ht; cases ht
      -- the quantum ends the text
      have last : ∀ w, (∀ r, b64DecodeQ (a :: b :: c :: d :: r) = (w, r.isEmpty)) →
          ∃ pre, pre <+: a :: b :: c :: d :: rest ∧ b64DecodeQ pre = ((b64DecodeQ (a :: b :: c :: d :: rest)).1, true) ∧
            ∀ pre', pre' <+: a :: b :: c :: d :: rest → (b64DecodeQ pre').2 = true → pre'.length ≤ pre.length := by
        intro w h
        refine ⟨[a, b, c, d], by simp, by rw [h, h]; rfl, fun pre' hp ht => ?_⟩
        rcases four hp with h4 | ⟨r, rfl, _⟩
        · simp; omega
        · rw [h] at ht
          simp only [List.isEmpty_iff] at ht
          subst ht
          simp
      cases ha : b64Val a with
      | none => exact wrong fun r => by simp [b64DecodeQ, ha]
      | some x =>
        cases hb : b64Val b with
        | none => exact wrong fun r => by simp [b64DecodeQ, ha, hb]
        | some y =>
          cases hc : b64Val c with
          | none =>
            by_cases hcd : c = '=' ∧ d = '='
            · exact last [UInt8.ofNat ((x * 262144 + y * 4096) / 65536)] fun r => by
                simp only [b64DecodeQ, ha, hb, hc, if_pos hcd]
            · exact wrong fun r => by simp only [b64DecodeQ, ha, hb, hc, if_neg hcd]
          | some z =>
            cases hd : b64Val d with
            | none =>
              by_cases hd' : d = '='
              · exact last _ fun r => by
                  simp only [b64DecodeQ, ha, hb, hc, hd, if_pos hd']
                  rfl
              · exact wrong fun r => by simp only [b64DecodeQ, ha, hb, hc, hd, if_neg hd']
            | some w =>
              obtain ⟨pre, h1, h2, h3⟩ := ih rest (by simp at hs; omega)
              refine ⟨a :: b :: c :: d :: pre, by simpa using h1, ?_, ?_⟩
              · simp only [b64DecodeQ, ha, hb, hc, hd, h2]
              · intro pre' hp ht
                rcases four hp with h4 | ⟨r, rfl, hr⟩
                · rw [short _ ht h4]; simp
                · have := h3 r hr (by simpa only [b64DecodeQ, ha, hb, hc, hd] using ht)
                  simp only [List.length_cons]
                  omega

theorem b64_lengths {s : Str} {b : List UInt8} (h : B64 s b) : b.length ≤ s.length / 4 * 3 := by
  induction h with
  | nil => simp
  | one => simp
  | two => simp
  | three _ _ _ _ _ ih => simp only [List.length_cons]; omega

theorem foldl_utf8 : ∀ (s : Str) (n : Nat), s.foldl (fun n c => n + c.utf8Size) n = n + (s.map Char.utf8Size).sum
  | [], n => by simp
  | c :: s, n => by simp only [List.foldl_cons, List.map_cons, List.sum_cons, foldl_utf8 s]; omega

theorem byteLen_eq (s : Str) : byteLen s = (s.map Char.utf8Size).sum := by
  rw [byteLen, foldl_utf8]; omega

theorem length_le_bytes : ∀ (s : Str), s.length ≤ (s.map Char.utf8Size).sum
  | [] => by simp
  | c :: s => by
    have := length_le_bytes s
    have := c.utf8Size_pos
    simp only [List.length_cons, List.map_cons, List.sum_cons]
    omega

/-- what `Decode` leaves of a text that is not base64 -/
theorem b64Decode_refused {s : Str} (h : (b64Decode s).2 = false) :
    (∀ b, ¬ Base64Text s b) ∧
    ∃ pre, pre <+: withoutBreaks s ∧ B64 pre (b64Decode s).1 ∧ (∀ pre' b, pre' <+: withoutBreaks s → B64 pre' b → pre'.length ≤ pre.length) ∧
      (b64Decode s).1.length ≤ b64DecodedLen (byteLen s) := by
  constructor
  · intro b hb
    have := (b64DecodeQ_iff _ _ (Nat.le_refl _) b).2 hb
    have e : b64Decode s = (b, true) := this
    rw [e] at h
    cases h
  · obtain ⟨pre, h1, h2, h3⟩ := b64DecodeQ_prefix _ (withoutBreaks s) (Nat.le_refl _)
    have hb : B64 pre (b64Decode s).1 := (b64DecodeQ_iff _ _ (Nat.le_refl _) _).1 h2
    refine ⟨pre, h1, hb, ?_, ?_⟩
    · intro pre' b hp hb'
      exact h3 pre' hp (by rw [(b64DecodeQ_iff _ _ (Nat.le_refl _) _).2 hb'])
    · have l1 := b64_lengths hb
      have l2 := h1.length_le
      have l3 : (withoutBreaks s).length ≤ s.length := List.length_filter_le _ _
      have l4 := length_le_bytes s
      rw [byteLen_eq, b64DecodedLen]
      have : pre.length / 4 ≤ (s.map Char.utf8Size).sum / 4 := Nat.div_le_div_right (by omega)
      omega

end VJ.Codecs
