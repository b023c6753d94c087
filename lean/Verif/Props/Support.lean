import Verif.Proof.SupportFill
import Verif.Props.Sample

/-!
# C56: which declarations get methods
-/

namespace VJ

section

variable [Ext]

/-- **C56.** A decoder is generated for type `n` exactly if its declaration is listed in
`ReadableDecl`.  Missing: anonymous struct types, arrays of named slices, arrays and maps,
string literals with escapes for bytes above 7f, and tag texts in which a backslash before a quote
ends a literal early are not modelled. -/
theorem C56_decoder_partial {Γ : Env} (hna : NoAnonymous Γ) (n : Nat) :
    HasDecoder Γ n ↔ ∃ d, Γ.decl n = some d ∧ ReadableDecl Γ d := by
  constructor
  · rintro ⟨d, k, ir, hd, h⟩
    exact ⟨d, hd, (genFill_iff hna fun t ht => hna n d t hd ht).1 ⟨k, ir, h⟩⟩
  · rintro ⟨d, hd, h⟩
    obtain ⟨k, ir, h⟩ := (genFill_iff hna fun t ht => hna n d t hd ht).2 h
    exact ⟨d, k, ir, hd, h⟩

/-- **C56.** An encoder is generated for type `n` exactly if its declaration is listed in
`WritableDecl`.  Missing: anonymous struct types. -/
theorem C56_encoder_partial {Γ : Env} (hna : NoAnonymous Γ) (n : Nat) :
    HasEncoder Γ n ↔ ∃ d, Γ.decl n = some d ∧ WritableDecl Γ d := by
  constructor
  · rintro ⟨d, ir, hd, h⟩
    exact ⟨d, hd, (genMarshal_iff hna fun t ht => hna n d t hd ht).1 ⟨ir, h⟩⟩
  · rintro ⟨d, hd, h⟩
    obtain ⟨ir, h⟩ := (genMarshal_iff hna fun t ht => hna n d t hd ht).2 h
    exact ⟨d, ir, hd, h⟩

/-- **C56.** `IsZero` is generated for type `n` exactly if its declaration is listed in
`TestableDecl`.  Missing: anonymous struct types. -/
theorem C56_isZero_partial {Γ : Env} (hna : NoAnonymous Γ) (n : Nat) :
    HasIsZero Γ n ↔ ∃ d, Γ.decl n = some d ∧ TestableDecl Γ d := by
  constructor
  · rintro ⟨d, k, ir, hd, h⟩
    exact ⟨d, hd, (genZero_iff fun t ht => hna n d t hd ht).1 ⟨k, ir, h⟩⟩
  · rintro ⟨d, hd, h⟩
    obtain ⟨k, ir, h⟩ := (genZero_iff fun t ht => hna n d t hd ht).2 h
    exact ⟨d, k, ir, hd, h⟩

/-- **C56.** `Reset` is generated for type `n` exactly if its declaration is listed in
`ResettableDecl`.  Missing: anonymous struct types. -/
theorem C56_reset_partial {Γ : Env} (hna : NoAnonymous Γ) (n : Nat) :
    HasReset Γ n ↔ ∃ d, Γ.decl n = some d ∧ ResettableDecl Γ d := by
  constructor
  · rintro ⟨d, k, ir, hd, h⟩
    exact ⟨d, hd, (genResetDecl_iff hna fun t ht => hna n d t hd ht).1 ⟨k, ir, h⟩⟩
  · rintro ⟨d, hd, h⟩
    obtain ⟨k, ir, h⟩ := (genResetDecl_iff hna fun t ht => hna n d t hd ht).2 h
    exact ⟨d, k, ir, hd, h⟩

end

namespace Examples

open Sample

attribute [local instance] Sample.ext

/-- type IDs struct { IDs []uuid.UUID `json:"ids"` }; type Names []Name; type Name string;
type Deep struct { D [][][]int `json:"d"` }; type Deeper struct { D [][][][][][][]int `json:"d"` };
type P *Name; type Ptrs struct { P P `json:"p"`; Q *P `json:"q"` } -/
def kinds : Env where
  decl := fun n => match n with
    | 0 => some (.struct false [⟨.slice .uuid, tag "ids"⟩])
    | 1 => some (.alias (.slice (.named 2)))
    | 2 => some (.alias (.prim .string))
    | 3 => some (.struct false [⟨.slice (.slice (.slice (.prim .int))), tag "d"⟩])
    | 4 => some (.struct false [⟨.slice (.slice (.slice (.slice (.slice (.slice (.slice (.prim .int))))))), tag "d"⟩])
    | 5 => some (.alias (.star (.named 2)))
    | 6 => some (.struct false [⟨.named 5, tag "p"⟩, ⟨.star (.named 5), tag "q"⟩])
    | _ => none
  ext := Γ.ext

theorem kinds_plain : NoAnonymous kinds := by
  intro n d t hd ht
  simp only [kinds] at hd
  split at hd <;> cases hd <;> simp [Decl.types] at ht <;> (try rcases ht with rfl | rfl) <;> (try subst ht) <;> rfl

/-- The hypothesis can be met: a slice of named strings is decoded, … -/
example : HasDecoder kinds 1 := (C56_decoder_partial kinds_plain 1).2
  ⟨_, rfl, .slice (by simp) (.prim (.base (.named rfl)) (by simp [Prim.hasJSON]))⟩

/-- … encoded, … -/
example : HasEncoder kinds 1 := (C56_encoder_partial kinds_plain 1).2
  ⟨_, rfl, .slice (by simp) (.prim (.named rfl) (by simp [Prim.hasJSON]) (by simp))⟩

/-- … tested for zero … -/
example : HasIsZero kinds 1 := (C56_isZero_partial kinds_plain 1).2 ⟨_, rfl, .slice _⟩

/-- … and reset; -/
example : HasReset kinds 1 := (C56_reset_partial kinds_plain 1).2 ⟨_, rfl, .slice _⟩

/-- fields of types declared as pointers, and pointers to them, are decoded, … -/
example : HasDecoder kinds 6 := (C56_decoder_partial kinds_plain 6).2 ⟨_, rfl, .struct (by
  intro fd hfd
  simp only [List.mem_cons, List.not_mem_nil, or_false] at hfd
  rcases hfd with rfl | rfl
  · exact .namedPtr (.named rfl) (.named rfl (by simp [Prim.hasJSON])) (.none rfl)
  · exact .namedPtr (.named rfl) (.named rfl (by simp [Prim.hasJSON])) (.none rfl))⟩

/-- … but such a type has no decoder of its own. -/
example : ¬ HasDecoder kinds 5 := by
  rw [C56_decoder_partial kinds_plain 5]
  rintro ⟨d, hd, h⟩
  cases hd
  cases h with
  | transit ht => rcases ht with ⟨_, ht⟩ | ⟨_, ht⟩ | ht | ht <;> cases ht

/-- Finding: a slice of UUIDs is decoded but there is no valid encoder: `uuid.UUID` has no
`MarshalTo`. -/
theorem C56_uuid_list : HasDecoder kinds 0 ∧ ¬ HasEncoder kinds 0 := by
  constructor
  · refine (C56_decoder_partial kinds_plain 0).2 ⟨_, rfl, .struct ?_⟩
    intro fd hfd
    simp only [List.mem_singleton] at hfd
    subst hfd
    exact .plain (.slice (.self _) (by simp) (by simp) (.uuid (.self _))) (.none rfl)
  · rintro ⟨d, ir, hd, h⟩
    cases hd
    cases h

/-- Finding: three nested slices are decoded but there is no encoder; -/
theorem C56_deep_list : HasDecoder kinds 3 ∧ ¬ HasEncoder kinds 3 := by
  constructor
  · refine (C56_decoder_partial kinds_plain 3).2 ⟨_, rfl, .struct ?_⟩
    intro fd hfd
    simp only [List.mem_singleton] at hfd
    subst hfd
    refine .plain (.slice (.self _) (by simp) (by simp) (.slice (.self _) (by simp) (by simp) (.slice (.self _) (by simp) (by simp) ?_))) (.none rfl)
    exact .prim (.base (.self _)) (by simp [Prim.hasJSON])
  · rintro ⟨d, ir, hd, h⟩
    cases hd
    cases h

/-- seven have no `Reset` (the generator refuses), three have. -/
theorem C56_seven_slices : ¬ HasReset kinds 4 ∧ HasReset kinds 3 := by
  constructor
  · rw [C56_reset_partial kinds_plain 4]
    rintro ⟨d, hd, h⟩
    cases hd
    cases h with
    | struct h =>
      have h := h _ (List.mem_singleton.2 rfl)
      have step : ∀ {k : Nat} {e : TExpr}, e ≠ .prim .byte → Depth kinds (k + 1) (.slice e) → Depth kinds k e := by
        intro k e hb h
        cases h with
        | bytes h => cases h with | is h => cases h; exact absurd rfl hb
        | slice h _ he => cases h with | is h => cases h; exact he
        | other h => exact absurd (.is (.self _)) (h _)
      have h := step (by simp) (step (by simp) (step (by simp) (step (by simp) (step (by simp) (step (by simp) h)))))
      cases h with
      | other h => exact h _ (.is (.self _))
  · refine (C56_reset_partial kinds_plain 3).2 ⟨_, rfl, .struct ?_⟩
    intro fd hfd
    simp only [List.mem_singleton] at hfd
    subst hfd
    refine .slice (.is (.self _)) (by simp) (.slice (.is (.self _)) (by simp) (.slice (.is (.self _)) (by simp) (.other ?_ ?_)))
    · intro e h
      cases h with | is h => cases h
    · intro u h
      cases h with | is h => cases h; exact .here (by simp)

end Examples

end VJ
