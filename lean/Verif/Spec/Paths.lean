import Verif.Model.Paths

/-!
# What a path names, and the module a source file belongs to
-/

namespace VJ

/-- Following the parts of a path from a directory.  A directory is the list of names on the way from
the root to it.  No symbolic links. -/
def follow : List Str → List Str → List Str
  | d, [] => d
  | d, p :: ps =>
    if p = [] ∨ p = str "." then follow d ps
    else if p = str ".." then follow d.dropLast ps
    else follow (d ++ [p]) ps

/-- What the text `p` names for a process with working directory `cwd`. -/
def placeOf (cwd : List Str) (p : Str) : List Str := follow (if isAbs p then [] else cwd) (splitSlash p)

/-- A process: its working directory and what opening and reading a file gives. -/
structure Machine where
  cwd : List Str
  file : List Str → OpenMod

/-- opening the file named by a text -/
def Machine.open (m : Machine) (p : Str) : OpenMod := m.file (placeOf m.cwd p)

/-- what there is under the name go.mod in a directory -/
def Machine.mod (m : Machine) (d : List Str) : OpenMod := m.file (d ++ [str "go.mod"])

/-- the directory of the source file written as `file` -/
def Machine.dirOf (m : Machine) (file : Str) : List Str := (placeOf m.cwd file).dropLast

/-- The generator, started for `file`, takes `d` for the root of the module. -/
def TakesRoot (m : Machine) (file : Str) (d : List Str) : Prop :=
  ∃ k r, newModPath m.open k file = .ok r ∧ placeOf m.cwd r = d

/-- The generator, started for `file`, panics. -/
def RootPanics (m : Machine) (file : Str) : Prop := ∃ k, newModPath m.open k file = .panic

/-- The text ends in the name of a file: not in a slash, `.` or `..`. -/
def EndsInName (file : Str) : Prop :=
  ∃ name, (splitSlash file).getLast? = some name ∧ name ≠ [] ∧ name ≠ str "." ∧ name ≠ str ".."

/-- `d` has a go.mod file and is the nearest such directory at or above `dir`. -/
def NearestRoot (m : Machine) (dir d : List Str) : Prop :=
  m.mod d = .found ∧ d <+: dir ∧ ∀ d', d' <+: dir → m.mod d' = .found → d' <+: d

/-- The first directory of the list with a go.mod file is `d`, and looking at those before gave no
other error than that there is no such file. -/
def FirstMod (m : Machine) (ds : List (List Str)) (d : List Str) : Prop :=
  ∃ pre post, ds = pre ++ d :: post ∧ m.mod d = .found ∧ ∀ x ∈ pre, m.mod x = .missing

/-- `n` directories up -/
def up : Nat → List Str → List Str
  | 0, d => d
  | n + 1, d => (up n d).dropLast

/-- a list of names, then without the last, and so on to the empty list -/
def shrink (l : List Str) : List (List Str) := (List.range (l.length + 1)).map fun i => l.take (l.length - i)

/-- `n - 1` directories up, then `n - 2`, and so on to the directory itself -/
def downs : Nat → List Str → List (List Str)
  | 0, _ => []
  | n + 1, d => up n d :: downs n d

end VJ
