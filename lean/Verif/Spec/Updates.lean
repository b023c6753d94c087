import Verif.Spec.Struct
import Verif.Spec.Api

/-!
# Documents that are applied one after the other
-/

namespace VJ

/-- no key is a member of both -/
def NoCommonKey (a b : List (Str × JV)) : Prop := ∀ kv ∈ a, ∀ kv' ∈ b, kv.1 ≠ kv'.1

/-- Struct types, with the structs embedded in them, in which no field is required or has a default. -/
structure UpdateSet (Γ : Env) (S : Nat → Prop) : Prop where
  embedding : ClosedUnderEmbedding Γ S
  optional : ∀ n strict fields fd, S n → Γ.decl n = some (.struct strict fields) → fd ∈ fields →
    fd.tags.required = false ∧ fd.tags.dflt = []

/-- The documents are decoded into the same receiver one after the other, each successfully; at least one. -/
inductive AppliesAll [Ext] (Γ : Env) (n : Nat) : List (List (Str × JV)) → GoVal → GoVal → Prop
  | one {d : List (Str × JV)} {old new : GoVal} (h : Fills Γ n (.obj d) old none new) : AppliesAll Γ n [d] old new
  | cons {d : List (Str × JV)} {ds : List (List (Str × JV))} {old mid new : GoVal} (h : Fills Γ n (.obj d) old none mid)
      (hs : AppliesAll Γ n ds mid new) : AppliesAll Γ n (d :: ds) old new

end VJ
