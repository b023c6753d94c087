import Verif.Model.Lookup
import Verif.Model.Methods

/-!
# From a source file to the methods generated for it

The front end (`Model/Front`) hands renderers to the code generator (`Model/GenFill`,
`Model/GenMarshal`).  Here the types and tags written in the source become what the code
generator works on.
-/

namespace VJ

/-- The number that stands for a name. -/
def nameCode : Str → Nat
  | [] => 0
  | c :: s => c.toNat + 1 + 1114113 * nameCode s

/-- The number that stands for a type of the package, and for `p.n`, a type of another
package. -/
def identId (n : Str) : Nat := 2 * nameCode n
def selId (p n : Str) : Nat := 2 * nameCode (p ++ '.' :: n) + 1

/-- The names of the predeclared types (helpers/gotypes.go:28-45, `Ordinal`). -/
def primNamed (n : Str) : Option Prim :=
  if n = str "int" then some .int
  else if n = str "int8" then some .int8
  else if n = str "int16" then some .int16
  else if n = str "int32" then some .int32
  else if n = str "int64" then some .int64
  else if n = str "uint" then some .uint
  else if n = str "uint8" then some .uint8
  else if n = str "uint16" then some .uint16
  else if n = str "uint32" then some .uint32
  else if n = str "uint64" then some .uint64
  else if n = str "float32" then some .float32
  else if n = str "float64" then some .float64
  else if n = str "bool" then some .bool
  else if n = str "string" then some .string
  else if n = str "byte" then some .byte
  else if n = str "rune" then some .rune
  else none

/-- What the generator finds when it looks for a type of another package: nothing, a struct,
or a type of another form. -/
inductive Seen where
  | no
  | struct
  | other
deriving DecidableEq, Repr

/-- What surrounds the file.
* `pkgs`: the packages of the project, for inlining (`Model/Lookup`, `packagesOf`);
* `seen`: the types of other packages the generator looks into (`Model/Lookup`,
  `resolveExternal`, `seenAs`). -/
structure Project where
  pkgs : GetPackage
  seen : Str → Str → Seen

/-- What `resolveExternal` finds (analyse.go:255-272), as far as the code generator asks. -/
def seenAs : Option TypeSpec → Seen
  | none => .no
  | some s =>
    match s.typ with
    | .struct _ => .struct
    | _ => .other

/-- The surroundings of a file with these imports, in a module whose root directory is
`modPath`: structs to inline are searched in the directories that were discovered, the types
of fields in the directories of the imports (generator/parser.go:30-64, 137-166).
`dirs` and `parse` stand for what go/parser finds in a directory, given as a list of names
and as a path. -/
def projectOf (module modPath : Str) (pk : PackageDirs) (dirs : DirPath → Option ParsedDir)
    (parse : Str → Option ParsedDir) (imports : List ImportSpec) : Project :=
  ⟨packagesOf pk dirs, fun p n => seenAs (resolveExternal module modPath parse imports p n)⟩

/-- A type expression, as the code generator sees it: go/parser resolves the names declared
in the same file.  The code generator looks at the second half of `time.Time` and `uuid.UUID`
only (helpers/gotypes.go:11, field/fill.go:215-218, field/fields.go:163-170, 351); types called so in other packages are
left out.  `hidden`: names of the file that have no generated methods; types that mention
them are left out. -/
def exprOf (hidden : Str → Bool) : SrcExpr → Out TExpr
  | .ident n =>
    if hidden n then .unsupp
    else match primNamed n with
      | some p => .ok (.prim p)
      | none => .ok (.named (identId n))
  | .sel p n =>
    if n = str "Time" then if p = str "time" then .ok .time else .unsupp
    else if n = str "UUID" then if p = str "uuid" then .ok .uuid else .unsupp
    else .ok (.sel (selId p n))
  | .array none e => do
    let t ← exprOf hidden e
    return .slice t
  | .array (some n) e => do
    let t ← exprOf hidden e
    return .array n t
  | .map v => do
    let t ← exprOf hidden v
    return .map t
  | .star e => do
    let t ← exprOf hidden e
    return .star t
  | .other => .unsupp

/-- The type of a field.  Only `p.T` itself is looked up in the other package
(analyse.go:230-233), not `*p.T`, `[]p.T` and so on.  A struct found there is called through
its methods like a type that is not found (`C53_found_struct`).  Simplification: fields whose
type is found and is not a struct are left out. -/
def fieldExpr (seen : Str → Str → Seen) (hidden : Str → Bool) (e : SrcExpr) : Out TExpr :=
  match e with
  | .sel p n =>
    match seen p n with
    | .no => exprOf hidden e
    | .struct => if n = str "Time" ∨ n = str "UUID" then .unsupp else exprOf hidden e
    | .other => .unsupp
  | _ => exprOf hidden e

/-- A named slice or array.  Its element type, too, is looked up in the other package
(analyse.go:190-195).  Simplification: when it is found the type is left out. -/
def arrayExpr (seen : Str → Str → Seen) (hidden : Str → Bool) (len : Option Nat) (e : SrcExpr) : Out TExpr :=
  match e with
  | .sel p n =>
    match seen p n with
    | .no => exprOf hidden (.array len e)
    | _ => .unsupp
  | _ => exprOf hidden (.array len e)

/-- The names a field has in Go: an embedded field is called like its type
(codegen/struct.go:70-93). -/
def goNames (f : SrcField) : List Str :=
  match f.names with
  | [] =>
    match f.typ with
    | .ident n => [n]
    | .sel _ n => [n]
    | _ => []
  | ns => ns

/-- The fields of the code generator: one for each name, all with the tag of the declaration
(codegen/struct.go:67-93, 262-281); an embedded field of another form panics. -/
def fieldDecls (seen : Str → Str → Seen) (hidden : Str → Bool) : List SrcField → Out (List FieldDecl)
  | [] => .ok []
  | f :: fs => do
    if goNames f = [] then .panic
    else
      let t ← fieldExpr seen hidden f.typ
      let rest ← fieldDecls seen hidden fs
      return (goNames f).map (fun _ => ⟨t, fieldTags f.tag⟩) ++ rest

/-- What the code generator makes of one type (analyse.go:160-206).  The fields of an inlined
struct are fields of the Go struct (promoted ones): the value of the struct is modelled as the
list of all of them.  Left out: structs where two fields have the same Go name, byte slices
whose element is a name for `byte`, structs with the tag `transit`. -/
def declOf (seen : Str → Str → Seen) (hidden : Str → Bool) (r : Renderer) (t : SpecType) : Out Decl :=
  match r.kind, t with
  | .struct fields, _ =>
    if (fields.flatMap goNames).Nodup then do
      let fds ← fieldDecls seen hidden fields
      return .struct (str "strict" ∈ r.tags) fds
    else .unsupp
  | .map, .map v => do
    let t ← exprOf hidden (.map v)
    return .alias t
  | .array, .array len e => do
    let t ← arrayExpr seen hidden len e
    return .alias t
  | .bytes, .array len e =>
    if e = .ident (str "byte") then do
      let t ← exprOf hidden (.array len e)
      return .alias t
    else .unsupp
  | .transit, .ident n => do
    let t ← exprOf hidden (.ident n)
    return .alias t
  | .transit, .sel p n => do
    let t ← exprOf hidden (.sel p n)
    return .alias t
  | _, _ => .unsupp

/-- The renderer of a type, when the type gets all the methods. -/
def fullRenderer (rs : List Renderer) (name : Str) : Option Renderer :=
  rs.find? fun r => r.name = name && !(str "custom" ∈ r.tags) && !(str "encode" ∈ r.tags) &&
    !(str "decode" ∈ r.tags)

/-- The predeclared type that a type of the file is declared as. -/
def plainName (s : TypeSpec) : Option Prim :=
  match s.typ with
  | .ident n => primNamed n
  | _ => none

/-- All types of the file. -/
def fileSpecs (file : List TypeDecl) : List TypeSpec := file.flatMap TypeDecl.specs

/-- Names of the file that have no generated methods, and types called like a predeclared
type.  Names for predeclared types are not among them: they are given the methods that would
be generated, and generated code that calls methods they do not have does not compile. -/
def hiddenName (rs : List Renderer) (file : List TypeDecl) (n : Str) : Bool :=
  (fileSpecs file).any fun s => s.name = n &&
    ((primNamed n).isSome || (fullRenderer rs n).isNone && (plainName s).isNone)

/-- The types the code generator works on, by name. -/
def declTable (pr : Project) (rs : List Renderer) (file : List TypeDecl) :
    List TypeSpec → Out (List (Nat × Decl))
  | [] => .ok []
  | s :: ss => do
    let rest ← declTable pr rs file ss
    match fullRenderer rs s.name with
    | some r =>
      let d ← declOf pr.seen (hiddenName rs file) r s.typ
      return (identId s.name, d) :: rest
    | none =>
      match plainName s with
      | some p => return (identId s.name, .alias (.prim p)) :: rest
      | none => return rest

/-- The whole way from a source file to the types whose methods `Env.methods` describes.
`ext`: the methods of all other types. -/
def link (pr : Project) (k : Nat) (file : List TypeDecl) (ext : Nat → Methods) : Out Env := do
  let rs ← getNormalized pr.pkgs k file
  let table ← declTable pr rs file (fileSpecs file)
  return ⟨fun n => table.lookup n, ext⟩

end VJ
