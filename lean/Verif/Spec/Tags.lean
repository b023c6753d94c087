import Verif.Spec.GoText

/-!
# What a field tag says

The conventional format of Go struct tags: pairs `key:"value"`, separated by spaces.
Nothing here mentions the model of the generator.
-/

namespace VJ

/-- A key: not empty, no spaces, control characters, quotes or colons. -/
def TagKey (k : Str) : Prop :=
  k ≠ [] ∧ ∀ c ∈ k, ' ' < c ∧ c ≠ ':' ∧ c ≠ '"' ∧ c ≠ Char.ofNat 0x7f

/-- `TagValue src v`: the text `src`, written between double quotes, stands for `v`. -/
abbrev TagValue (src v : Str) : Prop := Interpreted src v

/-- `TagPairs text pairs`: `text` is a well-formed tag with these pairs. -/
inductive TagPairs : Str → List (Str × Str) → Prop where
  | nil (spaces : Nat) : TagPairs (List.replicate spaces ' ') []
  | cons (spaces : Nat) {key src v rest pairs} : TagKey key → TagValue src v →
      TagPairs rest pairs →
      TagPairs (List.replicate spaces ' ' ++ key ++ ':' :: '"' :: src ++ '"' :: rest)
        ((key, v) :: pairs)

/-- The value a tag gives a key: that of its first pair with the key, or the empty text. -/
inductive TagSays : List (Str × Str) → Str → Str → Prop where
  | nil {key} : TagSays [] key []
  | here {key v pairs} : TagSays ((key, v) :: pairs) key v
  | later {k w pairs key v} : k ≠ key → TagSays pairs key v → TagSays ((k, w) :: pairs) key v

/-- `a` is the text of `v` before its first comma (all of it, when there is none). -/
def BeforeComma (v a : Str) : Prop :=
  ',' ∉ a ∧ (v = a ∨ ∃ rest, v = a ++ ',' :: rest)

/-- `b` is what stands between the first comma of `v` and the next; nothing, when there is
no comma. -/
def FirstOption (v b : Str) : Prop :=
  (',' ∉ v ∧ b = []) ∨ ∃ a rest, ',' ∉ a ∧ v = a ++ ',' :: rest ∧ BeforeComma rest b

end VJ
