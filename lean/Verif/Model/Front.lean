import Verif.Model.Tags

/-!
# The front end: which types get methods, and with which fields
-/

namespace VJ

/-- Type expressions of fields and elements as the front end tells them apart
(`ast.Expr`): a name, a name of another package, a slice (no length) or array, a map with
string keys, a pointer, anything else.  Simplification: lengths are literals. -/
inductive SrcExpr where
  | ident (name : Str)
  | sel (pkg name : Str)
  | array (len : Option Nat) (elt : SrcExpr)
  | map (val : SrcExpr)
  | star (e : SrcExpr)
  | other
deriving DecidableEq, Repr

/-- `ast.Field`: the names it declares (none for an embedded field), its type and the text
of its tag, quotes included. -/
structure SrcField where
  names : List Str
  typ : SrcExpr
  tag : Option Str
deriving DecidableEq, Repr

/-- The type of a `ast.TypeSpec`, as analyse.go:160-206 tells them apart. -/
inductive SpecType where
  | struct (fields : List SrcField)
  | map (val : SrcExpr)
  | array (len : Option Nat) (elt : SrcExpr)
  | ident (name : Str)
  | sel (pkg name : Str)
  | other
deriving DecidableEq, Repr

/-- `ast.TypeSpec`; `doc` holds the lines of its comment, when it has one of its own. -/
structure TypeSpec where
  name : Str
  typ : SpecType
  doc : Option (List Str) := none
deriving DecidableEq, Repr

/-- `ast.GenDecl` with its type specs: one without parentheses, several with.  Go's parser
gives the comment before a declaration without parentheses to the `GenDecl`, and the
comments inside the parentheses to the specs. -/
structure TypeDecl where
  doc : Option (List Str) := none
  specs : List TypeSpec
deriving DecidableEq, Repr

/-- `strings.TrimSpace`.  Simplification: ASCII white space only. -/
def trimSpace (s : Str) : Str :=
  ((s.dropWhile Char.isWhitespace).reverse.dropWhile Char.isWhitespace).reverse

/-- The tags of one comment line (analyse.go:119-126).  Simplification: `strings.ToLower`
on ASCII letters only. -/
def lineTags (line : Str) : List Str :=
  let line := line.dropWhile fun c => c = '/' || c = ' ' || c = '\t'
  match (str "json:").isPrefixOf line with
  | true => (splitComma (line.drop 5)).filterMap fun raw =>
      let tag := (trimSpace raw).map Char.toLower
      if tag = [] then none else some tag
  | false => []

/-- `extractTags` (analyse.go:110-129). -/
def extractTags : Option (List Str) → List Str
  | none => []
  | some lines => lines.flatMap lineTags

/-- `taggedDecl` (analyse.go:21-24). -/
structure TaggedDecl where
  spec : TypeSpec
  tags : List Str
deriving DecidableEq, Repr

/-- `ast.Walk` with `visitor.Visit` (analyse.go:85-106): every type is listed twice, first
with the tags of its declaration and then with its own.  Declarations are given in the order
the walk meets them. -/
def visit (file : List TypeDecl) : List TaggedDecl :=
  file.flatMap fun d =>
    d.specs.map (fun s => ⟨s, extractTags d.doc⟩) ++ d.specs.map (fun s => ⟨s, extractTags s.doc⟩)

/-- `visitor` (analyse.go:16-20). -/
structure Visitor where
  over : Option Str
  decls : List TaggedDecl

/-- `getDeclByName` (analyse.go:210-217). -/
def Visitor.getDecl (v : Visitor) (name : Str) : Option TaggedDecl :=
  v.decls.find? fun d => d.spec.name = name

/-- `discovery.GetPackage(pkg, hint)` (discoverer/parser.go:11-26): the declarations of the
package of that name (the one declaring `hint`, when there are several); `none`: an error. -/
abbrev GetPackage := Str → Str → Option (List TypeDecl)

/-- `findFieldWithName` (analyse.go:333-343), as a test. -/
def hasFieldNamed (fields : List SrcField) (name : Str) : Bool :=
  fields.any fun f => name ∈ f.names

/-- analyse.go:234-241: in another package, a capitalised type name is qualified.
Simplification: `unicode.IsUpper` on ASCII letters only. -/
def qualify (over : Option Str) (f : SrcField) : SrcField :=
  match over, f.typ with
  | some p, .ident (c :: n) => if c.isUpper then { f with typ := .sel p (c :: n) } else f
  | _, _ => f

/-- `exploreInlinedIdent` (analyse.go:293-306) and `exploreInlinedSelector` (308-331) once
the declaration is found: its fields, and whether they can replace the inlined field. -/
def inlineDecl (collect : Visitor → List SrcField → Out (List SrcField)) (v : Visitor)
    (name : Str) : Out (List SrcField × Bool) :=
  match v.getDecl name with
  | none => .panic
  | some d =>
    match d.spec.typ with
    | .struct fs => do
      let fields ← collect v fs
      pure (fields, !hasFieldNamed fields name)
    | _ => .panic

/-- `exploreInlined` (analyse.go:274-291). -/
def exploreInlined (pkgs : GetPackage) (collect : Visitor → List SrcField → Out (List SrcField))
    (v : Visitor) (f : SrcField) : Out (List SrcField × Bool) :=
  match f.typ with
  | .ident n => inlineDecl collect v n
  | .sel p n =>
    match f.names with
    | [] =>
      match pkgs p n with
      | none => .panic
      | some file => inlineDecl collect ⟨some p, visit file⟩ n
    | [_] => .ok ([f], true)
    | _ => .panic
  | _ => .panic

/-- One turn of the loop of `collectFields` (analyse.go:222-250).  Left out:
`resolveExternal` (230-233, 255-272), which attaches declarations of other packages to type
names without changing the fields. -/
def collectField (pkgs : GetPackage) (collect : Visitor → List SrcField → Out (List SrcField))
    (v : Visitor) (f : SrcField) : Out (List SrcField) :=
  if f.tag = none ∧ f.names ≠ [] then .panic
  else
    let f := qualify v.over f
    if (fieldTags f.tag).appendix = str "inline" then do
      let (fields, canInline) ← exploreInlined pkgs collect v f
      if canInline then pure fields else pure [f]
    else pure [f]

/-- The loop of `collectFields` over the fields of a struct. -/
def collectEach (one : SrcField → Out (List SrcField)) : List SrcField → Out (List SrcField)
  | [] => .ok []
  | f :: fs => do
    let a ← one f
    let b ← collectEach one fs
    pure (a ++ b)

/-- `collectFields` (analyse.go:219-253).  The first argument bounds the depth of inlining;
`loop` means that the bound was too small. -/
def collectFields (pkgs : GetPackage) : Nat → Visitor → List SrcField → Out (List SrcField)
  | 0, _, _ => .loop
  | k + 1, v, src => collectEach (collectField pkgs (collectFields pkgs k) v) src

/-- Which of the five renderers is made (codegen.NewStruct, NewMap, NewArray, NewByteSlice,
NewTransitive). -/
inductive RenderKind where
  | struct (fields : List SrcField)
  | map
  | array
  | bytes
  | transit
deriving DecidableEq, Repr

/-- `codegen.TaggedRenderer` (codegen.go:15-26). -/
structure Renderer where
  name : Str
  tags : List Str
  kind : RenderKind
deriving DecidableEq, Repr

/-- `put` (analyse.go:152-159). -/
def putRenderer (result : List Renderer) (r : Renderer) : List Renderer :=
  if result.any (fun ex => ex.name = r.name) then result else result ++ [r]

/-- `helpers.IsIdent(helpers.DenotedType(elt), "byte")` (analyse.go:176,
helpers/gotypes.go:5-26): the element is `byte`, or a type of the file declared as `byte`. -/
def denotesByte (v : Visitor) : SrcExpr → Bool
  | .ident n =>
    match v.getDecl n with
    | some d => d.spec.typ = .ident (str "byte")
    | none => n = str "byte"
  | _ => false

/-- The element type of a slice or array (analyse.go:180-195): a type of the file without
tags is processed with the tags of the slice.  Lines 190-195 look up an element type of another
package; this is only seen by later stages. -/
def processElem (process : TaggedDecl → List Renderer → Out (List Renderer)) (v : Visitor)
    (tags : List Str) : SrcExpr → List Renderer → Out (List Renderer)
  | .ident n, result =>
    match v.getDecl n with
    | some ⟨elSpec, []⟩ => process ⟨elSpec, tags⟩ result
    | _ => pure result
  | _, result => pure result

/-- `processDecl` (analyse.go:151-208).  The first number bounds the chain of untagged
element types and the depth of inlining. -/
def processDecl (pkgs : GetPackage) :
    Nat → Visitor → TaggedDecl → List Renderer → Out (List Renderer)
  | 0, _, _, _ => .loop
  | k + 1, v, ⟨spec, tags⟩, result =>
    match spec.typ with
    | .struct fs =>
      if str "transit" ∈ tags then pure (putRenderer result ⟨spec.name, tags, .transit⟩)
      else do
        let fields ← collectFields pkgs k v fs
        pure (putRenderer result ⟨spec.name, tags, .struct fields⟩)
    | .map _ => pure (putRenderer result ⟨spec.name, tags, .map⟩)
    | .array _ elt =>
      if denotesByte v elt then pure (putRenderer result ⟨spec.name, tags, .bytes⟩)
      else do
        let result ← processElem (processDecl pkgs k v) v tags elt result
        pure (putRenderer result ⟨spec.name, tags, .array⟩)
    | .ident _ => pure (putRenderer result ⟨spec.name, tags, .transit⟩)
    | .sel _ _ => pure (putRenderer result ⟨spec.name, tags, .transit⟩)
    | .other => .panic

/-- The loop of `getNormalized` (analyse.go:140-147). -/
def normalize (pkgs : GetPackage) (k : Nat) (v : Visitor) :
    List TaggedDecl → List Renderer → Out (List Renderer)
  | [], result => .ok result
  | d :: ds, result =>
    if d.tags = [] then normalize pkgs k v ds result
    else do
      let result ← processDecl pkgs k v d result
      normalize pkgs k v ds result

/-- `getNormalized` (analyse.go:131-149). -/
def getNormalized (pkgs : GetPackage) (k : Nat) (file : List TypeDecl) : Out (List Renderer) :=
  normalize pkgs k ⟨none, visit file⟩ (visit file) []

/-- What is declared for a type: the parser pool and the eight methods. -/
inductive Member where
  | pool | unmarshalJSON | fillFromJSON | validate
  | marshalJSON | marshalTo | isZero | reset
deriving DecidableEq, Repr

/-- `ValidatorFunc` returns nil for all but structs (struct.go:98, array.go:141-143,
byteslice.go:71-73, map.go:177-179, transit.go:32-34). -/
def Renderer.decoders (r : Renderer) : List (Str × Member) :=
  [(r.name, .pool), (r.name, .unmarshalJSON), (r.name, .fillFromJSON)] ++
    match r.kind with
    | .struct _ => [(r.name, .validate)]
    | _ => []

/-- The four encoding functions of every renderer. -/
def Renderer.encoders (r : Renderer) : List (Str × Member) :=
  [(r.name, .marshalJSON), (r.name, .marshalTo), (r.name, .isZero), (r.name, .reset)]

/-- The loop of `BuildDecoders` (analyse.go:41-57). -/
def decoderDecls (rs : List Renderer) : List (Str × Member) :=
  rs.flatMap fun r =>
    if str "custom" ∈ r.tags then [] else if str "encode" ∈ r.tags then [] else r.decoders

/-- The loop of `BuildEncoders` (analyse.go:63-82). -/
def encoderDecls (rs : List Renderer) : List (Str × Member) :=
  rs.flatMap fun r =>
    if str "custom" ∈ r.tags then [] else if str "decode" ∈ r.tags then [] else r.encoders

/-- `BuildDecoders` followed by `BuildEncoders` (main.go:20-21): what is declared in the
generated file, in order. -/
def generate (pkgs : GetPackage) (k : Nat) (file : List TypeDecl) : Out (List (Str × Member)) := do
  let rs ← getNormalized pkgs k file
  let rs' ← getNormalized pkgs k file
  pure (decoderDecls rs ++ encoderDecls rs')

end VJ
