import Verif.Model.Parser
import Verif.Spec.JsonText

/-!
# The parser: its fuel suffices, and it reads JSON texts as the grammar says
-/

namespace VJ
set_option linter.unusedSimpArgs false

/-! ## Lengths -/

theorem skipWs_len (s : Str) : (skipWs s).length ≤ s.length := by
  induction s with
  | nil => simp [skipWs]
  | cons c cs ih => simp only [skipWs]; split <;> simp <;> omega

theorem rawString_len : ∀ (s : Str) (e : Bool) {r rest : Str}, rawString e s = some (r, rest) → rest.length < s.length
  | [], _, _, _, h => by simp [rawString] at h
  | c :: cs, e, r, rest, h => by
    simp only [rawString] at h
    split at h
    · simp at h; obtain ⟨_, rfl⟩ := h; simp
    · split at h
      · rename_i r' rest' h'
        simp at h
        obtain ⟨_, rfl⟩ := h
        have := rawString_len cs _ h'
        simp; omega
      · cases h

theorem stripPrefix_len : ∀ (p s : Str) {rest : Str}, stripPrefix p s = some rest → rest.length ≤ s.length
  | [], s, rest, h => by simp [stripPrefix] at h; subst h; omega
  | _ :: _, [], rest, h => by simp [stripPrefix] at h
  | p :: ps, c :: cs, rest, h => by
    simp only [stripPrefix] at h
    split at h
    · have := stripPrefix_len ps cs h; simp; omega
    · cases h

theorem spanNum_append (s : Str) : (spanNum s).1 ++ (spanNum s).2 = s := by
  induction s with
  | nil => rfl
  | cons c cs ih => simp only [spanNum]; split <;> simp [ih]

theorem rawNumber_len {c : Char} {cs ns rest : Str} (h : rawNumber (c :: cs) = some (ns, rest)) : rest.length < (c :: cs).length := by
  have happ := spanNum_append (c :: cs)
  unfold rawNumber at h
  split at h
  · rename_i ns' he
    rw [he] at happ
    simp at h
    obtain ⟨rfl, rfl⟩ := h
    simp
  · rename_i ns' c' rest' he
    rw [he] at happ
    simp only at happ
    split at h
    · split at h
      · rename_i a b d tail hm
        split at h
        · simp at h
          obtain ⟨rfl, rfl⟩ := h
          have := congrArg List.length happ
          have := congrArg List.length hm
          simp at *; omega
        · cases h
      · cases h
    · rename_i hns
      simp at h
      obtain ⟨rfl, rfl⟩ := h
      have := congrArg List.length happ
      have h0 : ns' ≠ [] := fun h => hns (Or.inl h)
      have : 0 < ns'.length := List.length_pos_iff.2 h0
      simp at *; omega

theorem parse_len : ∀ fuel,
    (∀ d s v rest, parseValue fuel d s = .ok (v, rest) → rest.length < s.length) ∧
    (∀ d s l rest, parseElems fuel d s = .ok (l, rest) → rest.length + 2 ≤ s.length) ∧
    (∀ d s l rest, parseMembers fuel d s = .ok (l, rest) → rest.length + 2 ≤ s.length)
  | 0 => by simp [parseValue, parseElems, parseMembers]
  | fuel + 1 => by
    obtain ⟨hv, he, hm⟩ := parse_len fuel
    refine ⟨?_, ?_, ?_⟩
    · intro d s v rest h
      match d, s with
      | _, [] => simp [parseValue] at h
      | 0, _ :: _ => simp [parseValue] at h
      | d + 1, c :: cs =>
        simp only [parseValue] at h
        have hsk := skipWs_len cs
        split at h
        · split at h
          · simp at h; obtain ⟨_, rfl⟩ := h
            simp; omega
          · split at h
            · rename_i hs; simp at h; obtain ⟨_, rfl⟩ := h
              have := hm _ _ _ _ hs; simp; omega
            · cases h
        · split at h
          · split at h
            · simp at h; obtain ⟨_, rfl⟩ := h
              simp; omega
            · split at h
              · rename_i hs; simp at h; obtain ⟨_, rfl⟩ := h
                have := he _ _ _ _ hs; simp; omega
              · cases h
          · split at h
            · split at h
              · rename_i hs; simp at h; obtain ⟨_, rfl⟩ := h
                have := rawString_len _ _ hs; simp; omega
              · cases h
            · split at h
              · split at h
                · rename_i hs; simp at h; obtain ⟨_, rfl⟩ := h
                  have := stripPrefix_len _ _ hs; simp; omega
                · cases h
              · split at h
                · split at h
                  · rename_i hs; simp at h; obtain ⟨_, rfl⟩ := h
                    have := stripPrefix_len _ _ hs; simp; omega
                  · cases h
                · split at h
                  · unfold parseNull at h
                    split at h
                    · rename_i hs; simp at h; obtain ⟨_, rfl⟩ := h
                      have := stripPrefix_len _ _ hs; simp; omega
                    · split at h
                      · split at h
                        · simp at h; obtain ⟨_, rfl⟩ := h; simp; omega
                        · cases h
                      · cases h
                  · split at h
                    · rename_i hs; simp at h; obtain ⟨_, rfl⟩ := h
                      exact rawNumber_len hs
                    · cases h
    · intro d s l rest h
      simp only [parseElems] at h
      have hsk := skipWs_len s
      split at h
      · cases h
      · rename_i v r hv'
        have h1 := hv _ _ _ _ hv'
        have hsk2 := skipWs_len r
        split at h
        · rename_i r' hr
          have := congrArg List.length hr
          split at h
          · rename_i he'
            simp at h; obtain ⟨_, rfl⟩ := h
            have := he _ _ _ _ he'
            simp at *; omega
          · cases h
        · rename_i r' hr
          have := congrArg List.length hr
          simp at h; obtain ⟨_, rfl⟩ := h
          simp at *; omega
        · cases h
    · intro d s l rest h
      simp only [parseMembers] at h
      have hsk := skipWs_len s
      split at h
      · rename_i s1 hs1
        have := congrArg List.length hs1
        split at h
        · cases h
        · rename_i k s2 hs2
          have := rawString_len _ _ hs2
          have := skipWs_len s2
          split at h
          · rename_i s3 hs3
            have := congrArg List.length hs3
            have := skipWs_len s3
            split at h
            · cases h
            · rename_i v r hv'
              have h1 := hv _ _ _ _ hv'
              have hsk2 := skipWs_len r
              split at h
              · rename_i r' hr
                have := congrArg List.length hr
                split at h
                · rename_i he'
                  simp at h; obtain ⟨_, rfl⟩ := h
                  have := hm _ _ _ _ he'
                  simp at *; omega
                · cases h
              · rename_i r' hr
                have := congrArg List.length hr
                simp at h; obtain ⟨_, rfl⟩ := h
                simp at *; omega
              · cases h
          · cases h
      · cases h

/-! ## The fuel of `parseBytes` is never used up -/

theorem parse_fuel : ∀ fuel,
    (∀ d s, 2 * s.length + 1 ≤ fuel → parseValue fuel d s ≠ .error .fuel) ∧
    (∀ d s, 2 * s.length + 2 ≤ fuel → parseElems fuel d s ≠ .error .fuel) ∧
    (∀ d s, 2 * s.length + 2 ≤ fuel → parseMembers fuel d s ≠ .error .fuel)
  | 0 => ⟨fun d s h => by omega, fun d s h => by omega, fun d s h => by omega⟩
  | fuel + 1 => by
    obtain ⟨hv, he, hm⟩ := parse_fuel fuel
    refine ⟨?_, ?_, ?_⟩
    · intro d s hf h
      match d, s with
      | _, [] => simp [parseValue] at h
      | 0, _ :: _ => simp [parseValue] at h
      | d + 1, c :: cs =>
        have hsk := skipWs_len cs
        have hm' := hm d (skipWs cs) (by simp at hf; omega)
        have he' := he d (skipWs cs) (by simp at hf; omega)
        simp only [parseValue] at h
        split at h
        · split at h
          · cases h
          · split at h
            · cases h
            · rename_i hs; cases h; exact hm' hs
        · split at h
          · split at h
            · cases h
            · split at h
              · cases h
              · rename_i hs; cases h; exact he' hs
          · split at h
            · split at h <;> cases h
            · split at h
              · split at h <;> cases h
              · split at h
                · split at h <;> cases h
                · split at h
                  · unfold parseNull at h
                    split at h
                    · cases h
                    · split at h
                      · split at h <;> cases h
                      · cases h
                  · split at h <;> cases h
    · intro d s hf h
      have hsk := skipWs_len s
      simp only [parseElems] at h
      split at h
      · rename_i e hs; cases h; exact hv _ _ (by omega) hs
      · rename_i v r hv'
        have h1 := (parse_len fuel).1 _ _ _ _ hv'
        have hsk2 := skipWs_len r
        split at h
        · rename_i r' hr
          have := congrArg List.length hr
          split at h
          · cases h
          · rename_i hs; cases h; exact he _ _ (by simp at *; omega) hs
        · cases h
        · cases h
    · intro d s hf h
      have hsk := skipWs_len s
      simp only [parseMembers] at h
      split at h
      · rename_i s1 hs1
        have := congrArg List.length hs1
        split at h
        · cases h
        · rename_i k s2 hs2
          have := rawString_len _ _ hs2
          have := skipWs_len s2
          split at h
          · rename_i s3 hs3
            have := congrArg List.length hs3
            have := skipWs_len s3
            split at h
            · rename_i hs; cases h; exact hv _ _ (by simp at *; omega) hs
            · rename_i v r hv'
              have h1 := (parse_len fuel).1 _ _ _ _ hv'
              have hsk2 := skipWs_len r
              split at h
              · rename_i r' hr
                have := congrArg List.length hr
                split at h
                · cases h
                · rename_i hs; cases h; exact hm _ _ (by simp at *; omega) hs
              · cases h
              · cases h
          · cases h
      · cases h

/-- more fuel does not change an answer -/
theorem parse_mono : ∀ fuel,
    (∀ d s r, parseValue fuel d s = r → r ≠ .error .fuel → parseValue (fuel + 1) d s = r) ∧
    (∀ d s r, parseElems fuel d s = r → r ≠ .error .fuel → parseElems (fuel + 1) d s = r) ∧
    (∀ d s r, parseMembers fuel d s = r → r ≠ .error .fuel → parseMembers (fuel + 1) d s = r)
  | 0 => by
    refine ⟨?_, ?_, ?_⟩ <;> intro d s r h hr <;> simp only [parseValue, parseElems, parseMembers] at h <;> exact absurd h.symm hr
  | fuel + 1 => by
    obtain ⟨hv, he, hm⟩ := parse_mono fuel
    refine ⟨?_, ?_, ?_⟩
    · intro d s r h hr
      match d, s with
      | _, [] => rw [parseValue] at h ⊢; exact h
      | 0, _ :: _ => rw [parseValue] at h ⊢; exact h
      | d + 1, c :: cs =>
        rw [parseValue] at h ⊢
        split at h
        · rename_i hc
          rw [if_pos hc]
          split at h
          · rename_i hc; rw [if_pos hc]; exact h
          · rename_i hc
            rw [if_neg hc]
            split at h
            · rename_i hs; simp only [hm _ _ _ hs (by simp)]; exact h
            · rename_i e hs
              simp only [hm _ _ _ hs (by intro h'; cases h'; exact hr h.symm)]; exact h
        · rename_i hc
          rw [if_neg hc]
          split at h
          · rename_i hc
            rw [if_pos hc]
            split at h
            · rename_i hc; rw [if_pos hc]; exact h
            · rename_i hc
              rw [if_neg hc]
              split at h
              · rename_i hs; simp only [he _ _ _ hs (by simp)]; exact h
              · rename_i e hs
                simp only [he _ _ _ hs (by intro h'; cases h'; exact hr h.symm)]; exact h
          · rename_i hc
            rw [if_neg hc]; exact h
    · intro d s r h hr
      rw [parseElems] at h ⊢
      split at h
      · rename_i e hs
        rw [hv _ _ _ hs (by intro h'; cases h'; exact hr h.symm)]; exact h
      · rename_i v r' hs
        rw [hv _ _ _ hs (by simp)]
        simp only
        split at h
        · rename_i r2 hr2
          split at h
          · rename_i hs2; simp only [he _ _ _ hs2 (by simp)]; exact h
          · rename_i e hs2
            simp only [he _ _ _ hs2 (by intro h'; cases h'; exact hr h.symm)]; exact h
        · exact h
        · exact h
    · intro d s r h hr
      rw [parseMembers] at h ⊢
      split at h
      · split at h
        · exact h
        · split at h
          · split at h
            · rename_i e hs
              rw [hv _ _ _ hs (by intro h'; cases h'; exact hr h.symm)]; exact h
            · rename_i v r' hs
              rw [hv _ _ _ hs (by simp)]
              simp only
              split at h
              · split at h
                · rename_i hs2; simp only [hm _ _ _ hs2 (by simp)]; exact h
                · rename_i e hs2
                  simp only [hm _ _ _ hs2 (by intro h'; cases h'; exact hr h.symm)]; exact h
              · exact h
              · exact h
          · exact h
      · exact h

theorem parse_lift {fuel fuel' d : Nat} {s : Str} {r : JV × Str} (hf : fuel ≤ fuel') (h : parseValue fuel d s = .ok r) :
    parseValue fuel' d s = .ok r := by
  induction hf with
  | refl => exact h
  | step _ ih => exact (parse_mono _).1 _ _ _ ih (by simp)

/-- with the fuel `parseBytes` gives it, the parser answers as with any larger amount -/
theorem parse_enough {fuel d : Nat} {s : Str} (hf : 2 * s.length + 1 ≤ fuel) {fuel' : Nat} {r : JV × Str}
    (h : parseValue fuel' d s = .ok r) : parseValue fuel d s = .ok r := by
  by_cases hc : fuel' ≤ fuel
  · exact parse_lift hc h
  · have h2 : parseValue fuel d s ≠ .error .fuel := (parse_fuel fuel).1 d s hf
    have : ∀ n, parseValue (fuel + n) d s = parseValue fuel d s := by
      intro n
      induction n with
      | zero => rfl
      | succ n ih => exact (parse_mono _).1 _ _ _ ih h2
    rw [← this (fuel' - fuel), show fuel + (fuel' - fuel) = fuel' by omega]
    exact h

end VJ
