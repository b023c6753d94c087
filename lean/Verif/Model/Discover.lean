import Verif.Model.Basic

/-!
# Discovery of the packages of a module
-/

namespace VJ

/-- One entry of a directory, as `os.ReadDir` lists it.
* `file name clause`: a regular file; `clause` is the package named in its package clause,
  `none` when that cannot be parsed;
* `dir name entries`: a directory that can be listed;
* `locked name`: a directory that cannot be listed. -/
inductive FsEntry where
  | file (name : Str) (clause : Option Str)
  | dir (name : Str) (entries : List FsEntry)
  | locked (name : Str)

/-- A directory below `/` or `.`: the names of the directories on the way to it.
Simplification: cleaned paths, so that `path.Join(dir, name)` adds a name at the end and
`path.Dir` takes the last one away. -/
abbrev DirPath := List Str

/-- `path.Ext` of a path whose last element is `name`: what follows the last dot, with it. -/
def pathExt (name : Str) : Str :=
  let back := name.reverse
  if '.' ∈ name then '.' :: (back.takeWhile (· ≠ '.')).reverse else []

/-- `Discoverer.packages` (discoverer/projstruct.go:17): a map from package names to the
directories they were found in. -/
abbrev PackageDirs := Str → List DirPath

/-- The end of `discoverPackage` (projstruct.go:93-101): a directory already listed for the
package is not listed again. -/
def addPackage (name : Str) (dir : DirPath) (pk : PackageDirs) : PackageDirs :=
  fun n => if n = name then (if dir ∈ pk n then pk n else pk n ++ [dir]) else pk n

/-- `discoverPackage` (projstruct.go:88-103) on the file `goFile`; `none`: an error. -/
def discoverPackage (goFile : DirPath) (clause : Option Str) (pk : PackageDirs) :
    Option PackageDirs :=
  clause.map fun name => addPackage name goFile.dropLast pk

mutual
/-- One turn of the loop of `discoverPackages` (projstruct.go:66-84).  The variable
`discovered` is never set, so every Go file is looked at. -/
def discoverEntry (dir : DirPath) : FsEntry → PackageDirs → Option PackageDirs
  | .file name clause, pk =>
    if pathExt name = str ".go" then discoverPackage (dir ++ [name]) clause pk else some pk
  | .dir name entries, pk => discoverPackages (dir ++ [name]) entries pk
  | .locked _, _ => none
/-- `discoverPackages` (projstruct.go:60-86) on the directory `dir` with these entries. -/
def discoverPackages (dir : DirPath) : List FsEntry → PackageDirs → Option PackageDirs
  | [], pk => some pk
  | e :: es, pk => do
    let pk ← discoverEntry dir e pk
    discoverPackages dir es pk
end

/-- `New` and `Discover` (projstruct.go:22-31, 51-58) once the module root is known: the map
starts empty.  Left out: reading the module path from the go.mod file. -/
def discover (root : DirPath) (entries : List FsEntry) : Option PackageDirs :=
  discoverPackages root entries (fun _ => [])

/-- What `os.Open(path.Join(dir, "go.mod"))` followed by `io.ReadAll` gives. -/
inductive OpenMod where
  | found
  | missing
  | failed

/-- `discoveryModFile` (projstruct.go:33-49): the directory of the module file, searching
upwards; `none`: an error.  Both `/` and `.` are the empty list of names: at either the
search ends. -/
def discoverMod (fs : DirPath → OpenMod) (dir : DirPath) : Option DirPath :=
  match fs dir with
  | .found => some dir
  | .missing => if h : dir = [] then none else discoverMod fs dir.dropLast
  | .failed => none
termination_by dir.length
decreasing_by
  have := List.length_pos_iff.2 h
  simp only [List.length_dropLast]
  omega

end VJ
