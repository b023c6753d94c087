import Verif.Model.Link
import Verif.Spec.Front
import Verif.Spec.Tags
import Mathlib.Data.List.Forall2

/-!
# What a source file declares

`TypeMeans`, `TagMeans` and `FieldsMean` say how types, tags and fields written in a source
file are understood; `Full` says for which types all methods are generated.
-/

namespace VJ

/-- The predeclared types and their names. -/
inductive Predeclared : Str → Prim → Prop where
  | int : Predeclared (str "int") .int
  | int8 : Predeclared (str "int8") .int8
  | int16 : Predeclared (str "int16") .int16
  | int32 : Predeclared (str "int32") .int32
  | int64 : Predeclared (str "int64") .int64
  | uint : Predeclared (str "uint") .uint
  | uint8 : Predeclared (str "uint8") .uint8
  | uint16 : Predeclared (str "uint16") .uint16
  | uint32 : Predeclared (str "uint32") .uint32
  | uint64 : Predeclared (str "uint64") .uint64
  | float32 : Predeclared (str "float32") .float32
  | float64 : Predeclared (str "float64") .float64
  | bool : Predeclared (str "bool") .bool
  | string : Predeclared (str "string") .string
  | byte : Predeclared (str "byte") .byte
  | rune : Predeclared (str "rune") .rune

/-- a type of this name is declared in the file -/
def DeclaresName (file : List TypeDecl) (n : Str) : Prop := ∃ doc s, Declares file doc s ∧ s.name = n

/-- `TypeMeans file e t`: the type written `e` in `file` is `t`.  Types with a name are known by the number of
that name (`identId`, `selId`; see `C53_names_distinct`). -/
inductive TypeMeans (file : List TypeDecl) : SrcExpr → TExpr → Prop where
  | prim {n p} : Predeclared n p → ¬ DeclaresName file n → TypeMeans file (.ident n) (.prim p)
  | named {n} : (∀ p, ¬ Predeclared n p) → TypeMeans file (.ident n) (.named (identId n))
  | time : TypeMeans file (.sel (str "time") (str "Time")) .time
  | uuid : TypeMeans file (.sel (str "uuid") (str "UUID")) .uuid
  | foreign {p n} : n ≠ str "Time" → n ≠ str "UUID" → TypeMeans file (.sel p n) (.sel (selId p n))
  | slice {e t} : TypeMeans file e t → TypeMeans file (.array none e) (.slice t)
  | array {len e t} : TypeMeans file e t → TypeMeans file (.array (some len) e) (.array len t)
  | map {e t} : TypeMeans file e t → TypeMeans file (.map e) (.map t)
  | star {e t} : TypeMeans file e t → TypeMeans file (.star e) (.star t)

/-- `TagMeans tag t`: a field without tag has neither name nor options; a tag in backquotes
says `t`. -/
def TagMeans (tag : Option Str) (t : Tags) : Prop :=
  (tag = none → t.jsonName = [] ∧ t.appendix = [] ∧ t.layout = [] ∧ t.dflt = []) ∧
  ∀ text pairs json layout dflt, tag = some ('`' :: text ++ ['`']) → TagPairs text pairs →
    TagSays pairs (str "json") json → TagSays pairs (str "layout") layout →
    TagSays pairs (str "default") dflt →
    BeforeComma json t.jsonName ∧ FirstOption json t.appendix ∧
    BeforeComma layout t.layout ∧ BeforeComma dflt t.dflt

/-- The Go names of the fields that a line of a struct declares: those written, or, for an
embedded field, the name of its type. -/
inductive Called : SrcField → List Str → Prop where
  | written {n ns t tag} : Called ⟨n :: ns, t, tag⟩ (n :: ns)
  | embedded {n tag} : Called ⟨[], .ident n, tag⟩ [n]
  | embeddedForeign {p n tag} : Called ⟨[], .sel p n, tag⟩ [n]

/-- The lines `fs` declare the fields `fds`, which are called `names`. -/
inductive FieldsMean (file : List TypeDecl) : List SrcField → List Str → List FieldDecl → Prop where
  | nil : FieldsMean file [] [] []
  | cons {f fs ns names fds' fds} : Called f ns → fds'.length = ns.length →
      (∀ fd ∈ fds', TypeMeans file f.typ fd.typ ∧ TagMeans f.tag fd.tags) →
      FieldsMean file fs names fds → FieldsMean file (f :: fs) (ns ++ names) (fds' ++ fds)

/-- The types a name can be declared as, other than structs. -/
inductive AliasOf : SpecType → SrcExpr → Prop where
  | map {v} : AliasOf (.map v) (.map v)
  | array {len e} : AliasOf (.array len e) (.array len e)
  | ident {n} : AliasOf (.ident n) (.ident n)
  | sel {p n} : AliasOf (.sel p n) (.sel p n)

/-- `DeclMeans pkgs file t tags d`: a name declared as `t` in `file`, with the comment tags
`tags`, is the declaration `d`: a struct with the fields written in it and in the structs
inlined into it, strict when the tags say so; or another name for a type. -/
inductive DeclMeans (pkgs : GetPackage) (file : List TypeDecl) : SpecType → List Str → Decl → Prop where
  | struct {fields flat names fds tags strict} : Flat pkgs none file fields flat →
      FieldsMean file flat names fds → names.Nodup → (strict = true ↔ str "strict" ∈ tags) →
      DeclMeans pkgs file (.struct fields) tags (.struct strict fds)
  | alias {t e te tags} : AliasOf t e → TypeMeans file e te → DeclMeans pkgs file t tags (.alias te)

/-- The tags ask for all methods. -/
def AsksForAll (tags : List Str) : Prop :=
  tags ≠ [] ∧ str "custom" ∉ tags ∧ str "encode" ∉ tags ∧ str "decode" ∉ tags

/-! ## Writing inlined structs out -/

/-- The same type, with the fields of inlined structs perhaps written out instead; when they
are, nothing is left to inline. -/
inductive SpecWritten (pkgs : GetPackage) (file : List TypeDecl) : TypeSpec → TypeSpec → Prop where
  | same {s} : SpecWritten pkgs file s s
  | written {name doc fields flat} : Flat pkgs none file fields flat → (∀ f ∈ flat, ¬ Inlined f) →
      SpecWritten pkgs file ⟨name, .struct fields, doc⟩ ⟨name, .struct flat, doc⟩

/-- The same file, with inlined structs written out in some of its types. -/
def WrittenOut (pkgs : GetPackage) (file file' : List TypeDecl) : Prop :=
  List.Forall₂ (fun d d' => d.doc = d'.doc ∧ List.Forall₂ (SpecWritten pkgs file) d.specs d'.specs) file file'

end VJ
