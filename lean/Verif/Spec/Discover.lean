import Verif.Model.Discover

/-!
# What a module contains
-/

namespace VJ

/-- `HasPackage entries path p`: in the directory reached by `path` from one with these
entries there is a file with a name ending in `.go` and the package clause `p`. -/
inductive HasPackage : List FsEntry → DirPath → Str → Prop where
  | here {entries base p} : FsEntry.file (base ++ str ".go") (some p) ∈ entries →
      HasPackage entries [] p
  | deeper {entries name sub path p} : FsEntry.dir name sub ∈ entries →
      HasPackage sub path p → HasPackage entries (name :: path) p

/-- Somewhere below there is a Go file without a readable package clause, or a directory
that cannot be listed. -/
inductive Broken : List FsEntry → Prop where
  | clause {entries base} : FsEntry.file (base ++ str ".go") none ∈ entries → Broken entries
  | locked {entries name} : FsEntry.locked name ∈ entries → Broken entries
  | deeper {entries name sub} : FsEntry.dir name sub ∈ entries → Broken sub → Broken entries

/-- `m` is the nearest directory at or above `dir` that has a go.mod file. -/
def NearestMod (fs : DirPath → OpenMod) (dir m : DirPath) : Prop :=
  fs m = .found ∧ m <+: dir ∧ ∀ d, d <+: dir → fs d = .found → d <+: m

end VJ
