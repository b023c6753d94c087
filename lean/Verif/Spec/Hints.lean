import Verif.Spec.Errors

/-!
# Paths that leave something out
-/

namespace VJ

/-- words that stand in paths although nothing in the document is called so -/
def Filler (s : Str) : Prop := s = [] ∨ s = str "(root)"

/-- `Abridges path place`: the names of `path` are those of `place`, in their order, with some left
out and with fillers in between -/
inductive Abridges : List Str → List Str → Prop
  | done : Abridges [] []
  | keep (name : Str) {path place : List Str} (h : Abridges path place) : Abridges (name :: path) (name :: place)
  | skip (name : Str) {path place : List Str} (h : Abridges path place) : Abridges path (name :: place)
  | filler {s : Str} (hs : Filler s) {path place : List Str} (h : Abridges path place) : Abridges (s :: path) place

/-- The cause of the error is the right one, for a place of the document that cannot be decoded, and its path
names nothing that is not on the way to this place. -/
def Hints [Ext] (Γ : Env) (L : Str) (t : TExpr) (v : JV) (e : Err) : Prop :=
  ∃ place tail L' t' v' path, LeadsTo Γ L t v place L' t' v' ∧ Wrong Γ L' t' v' tail e.cause ∧ e = errorAt path e.cause ∧
    Abridges path (place ++ tail)

/-- types that mention no anonymous struct type, together with the types they use -/
structure NamedSet (Γ : Env) (S : Nat → Prop) : Prop where
  closed : ∀ n d t m, S n → Γ.decl n = some d → t ∈ d.types → m ∈ t.names → S m
  noAnon : ∀ n d t, S n → Γ.decl n = some d → t ∈ d.types → t.anon = false

end VJ
