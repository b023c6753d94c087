import Verif.Model.Discover
import Verif.Model.Basic

/-!
# Paths as texts, and the search for the module file on them

`Model/Discover` has directories as lists of names.  The generator works on texts, with package
`path` of the standard library, and starts from the text it is given for the source file.
-/

namespace VJ

deriving instance DecidableEq for OpenMod

/-- `strings.Split(p, "/")` -/
def splitSlash : Str → List Str
  | [] => [[]]
  | c :: s =>
    if c = '/' then [] :: splitSlash s
    else match splitSlash s with
      | [] => [[c]]
      | w :: ws => (c :: w) :: ws

/-- `strings.Join(parts, "/")` -/
def joinSlash : List Str → Str
  | [] => []
  | [w] => w
  | w :: v :: ws => w ++ '/' :: joinSlash (v :: ws)

/-- `path.IsAbs` -/
def isAbs (p : Str) : Bool := p.head? == some '/'

/-- One element of a path in the loop of `path.Clean`; `out`: the elements written so far, the last
one first. -/
def cleanStep (rooted : Bool) (out : List Str) (part : Str) : List Str :=
  if part = [] ∨ part = str "." then out
  else if part = str ".." then
    match out with
    | p :: rest => if p = str ".." then part :: out else rest
    | [] => if rooted then [] else [part]
  else part :: out

/-- `path.Clean` (standard library): elements that are empty or a dot go away, `..` takes the
element in front of it away. -/
def pathClean (p : Str) : Str :=
  let out := ((splitSlash p).foldl (cleanStep (isAbs p)) []).reverse
  if isAbs p then '/' :: joinSlash out
  else if out = [] then str "." else joinSlash out

/-- `path.Dir` (standard library): what stands up to the last slash, with it, cleaned. -/
def pathDir (p : Str) : Str := pathClean (joinSlash ((splitSlash p).dropLast ++ [[]]))

/-- `path.Join` (standard library) on two paths, the second not empty. -/
def pathJoin (a b : Str) : Str := if a = [] then pathClean b else pathClean (a ++ '/' :: b)

/-- `discoveryModFile` (discoverer/projstruct.go:33-49) on the text `dir`; `openMod` stands for
`os.Open` followed by `io.ReadAll`.  `none`: an error. -/
def findMod (openMod : Str → OpenMod) : Nat → Str → Out (Option Str)
  | 0, _ => .loop
  | k + 1, dir =>
    match openMod (pathJoin dir (str "go.mod")) with
    | .found => .ok (some dir)
    | r =>
      if dir = str "/" ∨ dir = str "." ∨ dir = [] then .ok none
      else match r with
        | .missing => findMod openMod k (pathDir dir)
        | _ => .ok none

/-- `generator.New` and `discoverer.New` (generator/parser.go:195-201, discoverer/projstruct.go:22-31):
the search starts at the directory of the source file and an error is a panic. -/
def newModPath (openMod : Str → OpenMod) (k : Nat) (file : Str) : Out Str := do
  match ← findMod openMod k (pathDir file) with
  | some dir => return dir
  | none => .panic

end VJ
