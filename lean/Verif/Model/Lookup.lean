import Verif.Model.Discover
import Verif.Model.Front

/-!
# Looking up packages and the types they declare

generator/discoverer/parser.go and the parts of generator/parser.go and analyse.go that
resolve names of other packages.
-/

namespace VJ

/-- What one `ast.GenDecl` declares: types, constants or variables, or imports. -/
inductive GenSpecs where
  | types (d : TypeDecl)
  | values (names : List Str)
  | imports
deriving DecidableEq, Repr

/-- A `ast.GenDecl` and whether it stands inside a function body. -/
structure GenDecl where
  inFunc : Bool := false
  specs : GenSpecs
deriving DecidableEq, Repr

/-- `ast.Package`: the declarations of its files, in the order `ast.Walk` meets them. -/
abbrev AstPackage := List GenDecl

/-- The type declarations `ast.Walk` meets, those in function bodies included. -/
def AstPackage.types (p : AstPackage) : List TypeDecl :=
  p.filterMap fun g =>
    match g.specs with
    | .types d => some d
    | _ => none

/-- The result of `parser.ParseDir`: packages by name; the order of the list stands for the
iteration order of the map. -/
abbrev ParsedDir := List (Str × AstPackage)

/-- `strings.HasSuffix(name, "_test")` -/
def isTestName (name : Str) : Bool := (str "_test").isSuffixOf name

/-- `lookupVisitor.Visit` (discoverer/parser.go:96-136) on one declaration: an import
declaration ends the search below it, which has no names anyway. -/
def GenDecl.hasName (g : GenDecl) (x : Str) : Bool :=
  match g.specs with
  | .types d => d.specs.any fun s => s.name = x
  | .values names => x ∈ names
  | .imports => false

/-- `lookupNames` (discoverer/parser.go:71-89). -/
def lookupNames (ps : ParsedDir) (hints : List Str) : Bool :=
  ps.any fun p => !isTestName p.1 && hints.any fun x => p.2.any (·.hasName x)

/-- The loop shared by `GetPackage`, `GetPackagePath` and `GetPackageFullName`
(discoverer/parser.go:16-24, 33-41, 57-68): the directory and its packages; `none`: an
error. -/
def searchDirs (parse : DirPath → Option ParsedDir) (single : Bool) (hints : List Str) :
    List DirPath → Option (DirPath × ParsedDir)
  | [] => none
  | d :: ds =>
    match parse d with
    | none => none
    | some ps =>
      if single || hints.isEmpty || lookupNames ps hints then some (d, ps)
      else searchDirs parse single hints ds

/-- The search over the directories known for a package. -/
def findPackage (pk : PackageDirs) (parse : DirPath → Option ParsedDir) (name : Str) (hints : List Str) :
    Option (DirPath × ParsedDir) :=
  searchDirs parse ((pk name).length == 1) hints (pk name)

/-- `GetPackagePath` (discoverer/parser.go:28-43). -/
def getPackagePath (pk : PackageDirs) (parse : DirPath → Option ParsedDir) (name : Str) (hints : List Str) :
    Option DirPath :=
  (findPackage pk parse name hints).map (·.1)

/-- `GetPackage` (discoverer/parser.go:11-26).  When the directory has no package of that
name the result is a nil package, whose first use panics: also `none`. -/
def getPackage (pk : PackageDirs) (parse : DirPath → Option ParsedDir) (name : Str) (hints : List Str) :
    Option AstPackage :=
  (findPackage pk parse name hints).bind fun r => r.2.lookup name

/-- The call in `exploreInlinedSelector` (analyse.go:313). -/
def packagesOf (pk : PackageDirs) (parse : DirPath → Option ParsedDir) : GetPackage :=
  fun p n => (getPackage pk parse p [n]).map AstPackage.types

/-! ## Imports -/

/-- `ast.ImportSpec`: its name, when it has one, and its path without the quotes. -/
structure ImportSpec where
  name : Option Str := none
  path : Str
deriving DecidableEq, Repr

/-- The text after the last slash (generator/parser.go:52-54: `strings.Split`, last part). -/
def lastPart (p : Str) : Str := (p.reverse.takeWhile (· ≠ '/')).reverse

/-- The name under which `Parse` files an import (generator/parser.go:43-55). -/
def ImportSpec.label (i : ImportSpec) : Str :=
  match i.name with
  | some [] => lastPart i.path
  | some n => n
  | none => lastPart i.path

/-- `Gen.packages` as filled by `Parse` (generator/parser.go:43-64). -/
def importTable (module : Str) (imports : List ImportSpec) (name : Str) : List Str :=
  imports.filterMap fun i =>
    if module.isPrefixOf i.path && i.label == name then some i.path else none

/-- `PackagePathFromPath` (discoverer/parser.go:45-50). -/
def packagePathFromPath (module modPath path : Str) : Str :=
  let rest := if (module ++ ['/']).isPrefixOf path then path.drop (module.length + 1) else path
  modPath ++ '/' :: rest

/-- The search of `ExploreType` in one parsed directory (generator/parser.go:142-164). -/
def findType (ps : ParsedDir) (name : Str) : Option TypeSpec :=
  ps.findSome? fun p =>
    if isTestName p.1 then none
    else p.2.findSome? fun g =>
      if g.inFunc then none
      else match g.specs with
        | .types d => d.specs.find? fun s => s.name = name
        | _ => none

/-- `ExploreType` (generator/parser.go:137-166): nil when the directory cannot be parsed. -/
def exploreType (module modPath : Str) (parse : Str → Option ParsedDir) (path name : Str) : Option TypeSpec :=
  match parse (packagePathFromPath module modPath path) with
  | none => none
  | some ps => findType ps name

/-- `resolveExternal` (analyse.go:255-272): all packages listed by `Parse` are internal. -/
def resolveExternal (module modPath : Str) (parse : Str → Option ParsedDir) (imports : List ImportSpec)
    (pkg name : Str) : Option TypeSpec :=
  (importTable module imports pkg).findSome? fun path => exploreType module modPath parse path name

end VJ
