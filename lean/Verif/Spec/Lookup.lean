import Verif.Spec.Discover
import Verif.Model.Lookup

/-!
# What packages declare
-/

namespace VJ

/-- The declaration declares `x`, as a type or as a constant or variable. -/
inductive Mentions (x : Str) : GenDecl → Prop
  | typ {g : GenDecl} {d : TypeDecl} {s : TypeSpec} (h : g.specs = .types d) (hs : s ∈ d.specs) (hn : s.name = x) :
      Mentions x g
  | value {g : GenDecl} {names : List Str} (h : g.specs = .values names) (hn : x ∈ names) : Mentions x g

/-- A package of the directory that is not a test package declares `x`, at any depth. -/
def DirMentions (ps : ParsedDir) (x : Str) : Prop :=
  ∃ name p, (name, p) ∈ ps ∧ ¬ str "_test" <:+ name ∧ ∃ g ∈ p, Mentions x g

/-- `t` is declared outside functions in a package of the directory that is not a test
package. -/
def TopLevel (ps : ParsedDir) (t : TypeSpec) : Prop :=
  ∃ name p, (name, p) ∈ ps ∧ ¬ str "_test" <:+ name ∧
    ∃ g ∈ p, g.inFunc = false ∧ ∃ d, g.specs = .types d ∧ t ∈ d.specs

/-- The import is known in the file as `name`: it is given that name, or it has none and its
path ends so. -/
inductive ImportedAs (name : Str) : ImportSpec → Prop
  | named {path : Str} (h : name ≠ []) : ImportedAs name ⟨some name, path⟩
  | last {path pre : Str} (h : path = pre ++ '/' :: name) (hn : '/' ∉ name) : ImportedAs name ⟨none, path⟩
  | whole (hn : '/' ∉ name) : ImportedAs name ⟨none, name⟩

end VJ
