import Verif.Model.Output

/-!
# Files of a module, seen from outside
-/

namespace VJ

/-- `IsDir es path sub`: the directory reached by `path` has the entries `sub`. -/
inductive IsDir : List Tree → DirPath → List Tree → Prop where
  | here {es} : IsDir es [] es
  | deeper {es name sub path x} : Tree.dir name sub ∈ es → IsDir sub path x → IsDir es (name :: path) x

/-- A directory listing in the order of the names, in which the source file `src` and the files
`out` and `valyjson_utils.go`, as far as they are there, all belong to the package `p`. -/
structure Ready (clause : Str → Option Str) (src out p : Str) (es : List Tree) : Prop where
  sorted : es.Pairwise fun a b => a.name ≤ b.name
  source : ∃ s, .file src s ∈ es ∧ clause s = some p
  generated : ∀ n s, n = out ∨ n = utilsName → .file n s ∈ es → clause s = some p

/-- Both generated files are removed by hand. -/
def cleared (out : Str) (es : List Tree) : List Tree :=
  es.filter fun | .file n _ => n ≠ out ∧ n ≠ utilsName | .dir _ _ => true

/-- The same files with the same texts. -/
def SameFiles (es es' : List Tree) : Prop := ∀ d name, readFile es d name = readFile es' d name

/-- The generator does not look into the directory it writes to: the source file imports no
package of that directory. -/
def LooksElsewhere (G : Generator) (dir : DirPath) : Prop :=
  ∀ pk f g s, (∀ d, d ≠ dir → f d = g d) → G.gen pk f s = G.gen pk g s

/-- The source file, the generated files and the rest of the module as the theorems about a
second run want them: the source file is a Go file listed before the files generated from it. -/
structure Settled (G : Generator) (dir : DirPath) (src out p : Str) (es : List Tree) : Prop where
  go : ∃ base, src = base ++ str ".go"
  before : src < out ∧ src < utilsName
  ready : ∀ sub, IsDir es dir sub → Ready G.clause src out p sub
  elsewhere : LooksElsewhere G dir

end VJ
