import Verif.Model.Link
import Verif.Spec.Front
import Mathlib.Data.List.Forall2

/-!
# The same directories, walked in different orders

go/parser keeps the packages of a directory, and the files of a package, in maps.  Go walks a map in another order every time.
-/

namespace VJ

/-- The same packages with the same declarations, in other orders.  (Walks change the order of packages and of files; here single
declarations may change places too.) -/
def OtherOrder (ps ps' : ParsedDir) : Prop :=
  ∃ qs, ps.Perm qs ∧ List.Forall₂ (fun p q => p.1 = q.1 ∧ p.2.Perm q.2) qs ps'

/-- reading a directory fails both times, or finds the same -/
inductive SameRead : Option ParsedDir → Option ParsedDir → Prop
  | failed : SameRead none none
  | read {ps ps' : ParsedDir} (h : OtherOrder ps ps') : SameRead (some ps) (some ps')

/-- a type declared at top level in a package of the directory that is not a package of tests -/
def TopType (ps : ParsedDir) (s : TypeSpec) : Prop :=
  ∃ name p g d, (name, p) ∈ ps ∧ ¬ str "_test" <:+ name ∧ g ∈ p ∧ g.inFunc = false ∧ g.specs = .types d ∧ s ∈ d.specs

/-- Nothing is declared twice in a directory: its packages have different names, a package does not declare a type twice (types in
function bodies included), and no two packages declare a type of the same name. -/
structure NamesOnce (ps : ParsedDir) : Prop where
  packages : (ps.map Prod.fst).Nodup
  types : ∀ p ∈ ps, DistinctTypes p.2.types
  apart : ∀ s s', TopType ps s → TopType ps s' → s.name = s'.name → s = s'

/-- nothing is declared twice in any directory -/
def AllOnce {D : Type} (parse : D → Option ParsedDir) : Prop := ∀ d ps, parse d = some ps → NamesOnce ps

end VJ
