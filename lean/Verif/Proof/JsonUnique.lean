import Verif.Proof.ParseJson
import Verif.Proof.JsonBuild

/-!
# A JSON text denotes one value
-/

namespace VJ

theorem DepthLe.mono {d d' : Nat} {v : JV} (h : DepthLe d v) (hd : d ≤ d') : DepthLe d' v := by
  induction h generalizing d' with
  | null => obtain ⟨d', rfl⟩ : ∃ x, d' = x + 1 := ⟨d' - 1, by omega⟩; constructor
  | bool => obtain ⟨d', rfl⟩ : ∃ x, d' = x + 1 := ⟨d' - 1, by omega⟩; constructor
  | num => obtain ⟨d', rfl⟩ : ∃ x, d' = x + 1 := ⟨d' - 1, by omega⟩; constructor
  | str => obtain ⟨d', rfl⟩ : ∃ x, d' = x + 1 := ⟨d' - 1, by omega⟩; constructor
  | arr _ ih => obtain ⟨d', rfl⟩ : ∃ x, d' = x + 1 := ⟨d' - 1, by omega⟩; exact .arr fun v hv => ih v hv (by omega)
  | obj _ ih => obtain ⟨d', rfl⟩ : ∃ x, d' = x + 1 := ⟨d' - 1, by omega⟩; exact .obj fun v hv => ih v hv (by omega)

theorem joinComma_len {t : Str} : ∀ {ts : List Str}, t ∈ ts → t.length ≤ (joinComma ts).length
  | [u], h => by simp at h; subst h; simp [joinComma]
  | u :: w :: ts, h => by
    rcases List.mem_cons.1 h with rfl | h
    · simp [joinComma]
    · have := joinComma_len h; simp [joinComma]; omega

/-- a value is not nested deeper than its text is long -/
theorem json_depth {v : JV} {s : Str} (h : Json v s) : DepthLe s.length v := by
  induction h with
  | null => exact .null 3
  | true => exact .bool 3 _
  | false => exact .bool 4 _
  | num h =>
    obtain ⟨c, cs, hb, _⟩ := json_head (.num h)
    rw [hb]; exact .num _ _
  | str => exact .str _ _
  | arr0 => exact .arr fun v hv => (by cases hv)
  | obj0 => exact .obj fun v hv => (by cases hv)
  | arr hne hl hw h ih =>
    refine .arr fun v hv => ?_
    obtain ⟨i, hi, rfl⟩ := List.mem_iff_getElem.1 hv
    rename_i l ps
    have hp := List.getElem?_eq_getElem (hl.symm ▸ hi : i < ps.length)
    refine (ih i _ _ (List.getElem?_eq_getElem hi) hp).mono ?_
    have := joinComma_len (List.mem_map_of_mem (f := ElemText.text) (List.mem_of_getElem? hp))
    simp only [ElemText.text, List.length_append] at this ⊢
    omega
  | obj hne hl hw hk h ih =>
    refine .obj fun v hv => ?_
    obtain ⟨i, hi, rfl⟩ := List.mem_iff_getElem.1 hv
    rename_i l ps
    have hp := List.getElem?_eq_getElem (hl.symm ▸ hi : i < ps.length)
    refine (ih i _ _ (List.getElem?_eq_getElem hi) hp).mono ?_
    have := joinComma_len (List.mem_map_of_mem (f := MemberText.text) (List.mem_of_getElem? hp))
    simp only [MemberText.text, List.length_append, List.length_cons] at this ⊢
    omega

/-- a text denotes at most one value -/
theorem json_unique {a b : JV} {s : Str} (ha : Json a s) (hb : Json b s) : a = b := by
  have hn : NumEnd [] := fun c h => by cases h
  obtain ⟨K, h⟩ := parses_json ha (json_depth ha) [] hn
  obtain ⟨K', h'⟩ := parses_json hb (json_depth hb) [] hn
  have e := h (max K K') (by omega)
  rw [h' (max K K') (by omega)] at e
  cases e; rfl

/-- a document denotes at most one value -/
theorem document_unique {a b : JV} {s : Str} (ha : Document a s) (hb : Document b s) : a = b := by
  have one : ∀ {v : JV}, Document v s → ∃ r K, ∀ f ≥ K, parseValue f s.length (skipWs s) = .ok (v, r) := by
    rintro v ⟨x, y, z, rfl, hx, hz, hj⟩
    obtain ⟨c0, cs, hy, hc0, _, _⟩ := json_head hj
    have e1 : skipWs (x ++ y ++ z) = y ++ z := by
      rw [List.append_assoc, skipWs_append _ hx, hy]
      exact skipWs_cons hc0
    rw [e1]
    exact ⟨z, parses_json hj ((json_depth hj).mono (by simp; omega)) z (by
      intro w hw
      cases z with
      | nil => simp at hw
      | cons u us => simp at hw; subst hw; rcases hz u (by simp) with rfl | rfl | rfl | rfl <;> decide)⟩
  obtain ⟨r, K, h⟩ := one ha
  obtain ⟨r', K', h'⟩ := one hb
  have e := h (max K K') (by omega)
  rw [h' (max K K') (by omega)] at e
  cases e; rfl

/-- a text the parser does not accept is not JSON, unless it is long enough to be nested too deep -/
theorem not_json {s : Str} (h : parseBytes s = none) (hl : s.length ≤ 300) : ¬ ∃ jv, Json jv s := by
  rintro ⟨jv, hj⟩
  have := parseBytes_document (v := jv) (s := s) ⟨[], s, [], by simp, ws_nil, ws_nil, hj⟩ ((json_depth hj).mono hl)
  rw [h] at this; cases this

end VJ
