import Verif.Spec.Fields

/-!
# Two versions of a struct type
-/

namespace VJ

/-- The newer version keeps every field of the older one, with its type and tags: the field
at position `i` of the older version is at position `pos i` of the newer one.  Other fields
may have been added anywhere. -/
def KeepsFields (old new : List FieldDecl) (pos : Nat → Nat) : Prop :=
  ∀ (i : Nat) (fd : FieldDecl), old[i]? = some fd → new[pos i]? = some fd

/-- The values of the two versions agree in the common fields. -/
def AgreeOnFields (old : List FieldDecl) (pos : Nat → Nat) (gs hs : List GoVal) : Prop :=
  ∀ i, i < old.length → gs[i]? = hs[pos i]?

/-- The field at position `j` of the newer version was added. -/
def Added (old : List FieldDecl) (pos : Nat → Nat) (j : Nat) : Prop :=
  ∀ i, i < old.length → pos i ≠ j

/-- The document can be read by a version that has the added field `fd`: the field has a
name, the document has no member of that name, and the field is not one that must be there. -/
def Optional (fd : FieldDecl) (doc : JV) : Prop :=
  fd.tags.jsonName ≠ [] ∧ doc.get fd.tags.jsonName = none ∧
    (fd.tags.jsonName = str "-" ∨ fd.tags.dflt ≠ [] ∨ fd.tags.required = false)

end VJ
