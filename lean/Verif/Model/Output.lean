import Verif.Model.Discover

/-!
# Writing the generated files

generator/parser.go:114-134 (`Print`), 168-186 (`fmtGOFile`) and generator/static/static.go: what
is on the disk while the generator runs, when it is killed, and when an operation fails.
-/

namespace VJ

/-- A file with its contents, or a directory; entries as `os.ReadDir` lists them. -/
inductive Tree where
  | file (name text : Str)
  | dir (name : Str) (entries : List Tree)

/-- the name of an entry -/
def Tree.name : Tree → Str
  | .file n _ | .dir n _ => n

mutual
/-- What discovery (`Model/Discover`) sees of an entry; `clause`: `parser.ParseFile` with
`PackageClauseOnly` (projstruct.go:89). -/
def Tree.entry (clause : Str → Option Str) : Tree → FsEntry
  | .file n s => .file n (clause s)
  | .dir n es => .dir n (treeEntries clause es)
def treeEntries (clause : Str → Option Str) : List Tree → List FsEntry
  | [] => []
  | e :: es => e.entry clause :: treeEntries clause es
end

/-- The file called `name` gets the text `s`; a new file is listed in the order of the names. -/
def place (name s : Str) : List Tree → List Tree
  | [] => [.file name s]
  | .file n c :: es =>
    if n = name then .file name s :: es
    else if name < n then .file name s :: .file n c :: es
    else .file n c :: place name s es
  | .dir n sub :: es =>
    if name < n then .file name s :: .dir n sub :: es
    else .dir n sub :: place name s es

/-- `f` is done to the entries of the directory `d`. -/
def inDir (f : List Tree → List Tree) : DirPath → List Tree → List Tree
  | [], es => f es
  | d :: ds, es => es.map fun
    | .dir n sub => if n = d then .dir n (inDir f ds sub) else .dir n sub
    | e => e

/-- The files among these entries. -/
def filesOf (es : List Tree) : List (Str × Str) :=
  es.filterMap fun | .file n s => some (n, s) | .dir _ _ => none

/-- The directories among these entries. -/
def subdirs (es : List Tree) : List (Str × List Tree) :=
  es.filterMap fun | .file _ _ => none | .dir n sub => some (n, sub)

/-- The entries of the directory `d`; `none`: there is none. -/
def listDir : DirPath → List Tree → Option (List Tree)
  | [], es => some es
  | d :: ds, es => (subdirs es).findSome? fun p => if p.1 = d then listDir ds p.2 else none

/-- The files of the directory `d`. -/
def dirFiles (es : List Tree) (d : DirPath) : Option (List (Str × Str)) := (listDir d es).map filesOf

/-- The text of the file `name` of the directory `d`. -/
def readFile (es : List Tree) (d : DirPath) (name : Str) : Option Str :=
  (dirFiles es d).bind fun fs => fs.lookup name

/-- The only template (static/tpl); its file name without `.tpl` (static.go:50). -/
def utilsName : Str := str "valyjson_utils.go"

/-- `os.Create`, which empties the file, and then the text piece by piece: what the file holds
after every step.  In the model one character is written at a time, so that the file may hold
any beginning of the text when the generator is killed. -/
def puts (name s : Str) : List (Str × Str) := (List.range (s.length + 1)).map fun k => (name, s.take k)

/-- The steps are done in the directory `dir`. -/
def putAll (dir : DirPath) (steps : List (Str × Str)) (es : List Tree) : List Tree :=
  steps.foldl (fun es p => inDir (place p.1 p.2) dir es) es

/-- `fmtGOFile` (parser.go:168-186) on the file `out` holding the text `now`; `fmt`: go/parser
followed by go/format, `none` when the text is not a Go file.  Its error is not looked at
(parser.go:119). -/
def fmtSteps (fmt : Str → Option Str) (out now : Str) : List (Str × Str) :=
  match fmt now with
  | some t => puts out t
  | none => []

/-- The first part of `Print` (parser.go:115-134): the output file, then the helper file
(static.go:20-87). -/
def writeSteps (out text utils : Str) : List (Str × Str) := puts out text ++ puts utilsName utils

/-- `Print` (parser.go:114-134); the deferred `fmtGOFile` runs last.  `text`: the comment line
and what go/printer prints. -/
def printSteps (fmt : Str → Option Str) (out text utils : Str) : List (Str × Str) :=
  writeSteps out text utils ++ fmtSteps fmt out text

/-- How a run of the generator ends. -/
inductive Ending where
  /-- it panics before `Print` -/
  | refused
  | finished
  /-- the process is killed -/
  | killed
  /-- an operation on a file fails: panic -/
  | failed
deriving DecidableEq, Repr

/-- What `Print` leaves on the disk. -/
inductive Prints (fmt : Str → Option Str) (dir : DirPath) (out text utils : Str) (es : List Tree) : Ending → List Tree → Prop
  | finished : Prints fmt dir out text utils es .finished (putAll dir (printSteps fmt out text utils) es)
  /-- An operation of the deferred `fmtGOFile` fails: its error is dropped (parser.go:119), and
  `Print` returns. -/
  | dropped (m : Nat) : Prints fmt dir out text utils es .finished
      (putAll dir (writeSteps out text utils ++ (fmtSteps fmt out text).take m) es)
  | killed (k : Nat) : Prints fmt dir out text utils es .killed (putAll dir ((printSteps fmt out text utils).take k) es)
  /-- `os.Create` of the output file fails -/
  | create : Prints fmt dir out text utils es .failed es
  /-- A later operation fails: `fmtGOFile` still runs, because it is deferred, on what the file
  holds then, and may itself fail or be killed. -/
  | failed {k m : Nat} {now : Str} (hk : 0 < k) (hnow : readFile (putAll dir ((writeSteps out text utils).take k) es) dir out = some now) :
      Prints fmt dir out text utils es .failed
        (putAll dir ((writeSteps out text utils).take k ++ (fmtSteps fmt out now).take m) es)

/-- The parts of the generator that are parameters here.
* `clause`: reading a package clause;
* `fmt`: formatting;
* `gen`: the whole text generated (`Model/Front`, `Model/Link`, `Model/GenFill`, …), from the
  packages found, the files of the directories it parses and the source file; `none`: the generator panics;
* `utils`: the text of the helper file. -/
structure Generator where
  clause : Str → Option Str
  fmt : Str → Option Str
  gen : PackageDirs → (DirPath → Option (List (Str × Str))) → Str → Option Str
  utils : Str

/-- `New`, `Parse`, `BuildDecoders`, `BuildEncoders`, `FixImports` (main.go:12-22,
parser.go:32-112): nothing is written before all of it is done.  `es` is the module; paths
start at its root. -/
def Generator.plan (G : Generator) (es : List Tree) (dir : DirPath) (src : Str) : Option Str := do
  let pk ← discover [] (treeEntries G.clause es)
  let s ← readFile es dir src
  G.gen pk (dirFiles es) s

/-- One run of the generator on the file `src` of the directory `dir`, with output to `out` in the
same directory. -/
inductive Runs (G : Generator) (dir : DirPath) (src out : Str) (es : List Tree) : Ending → List Tree → Prop
  | refused (h : G.plan es dir src = none) : Runs G dir src out es .refused es
  | prints {text : Str} {e : Ending} {es' : List Tree} (h : G.plan es dir src = some text)
      (hp : Prints G.fmt dir out text G.utils es e es') : Runs G dir src out es e es'

/-- A run that finishes and in which no operation fails. -/
def Completes (G : Generator) (dir : DirPath) (src out : Str) (es es' : List Tree) : Prop :=
  ∃ text, G.plan es dir src = some text ∧ es' = putAll dir (printSteps G.fmt out text G.utils) es

end VJ
