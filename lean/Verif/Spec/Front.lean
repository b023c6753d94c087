import Verif.Model.Front

/-!
# What comment tags and inline tags ask for

Stated on the declarations of a source file alone.
-/

namespace VJ

/-- Go's rule that no two types of a file have the same name. -/
def DistinctTypes (file : List TypeDecl) : Prop :=
  (file.flatMap fun d => d.specs.map TypeSpec.name).Nodup

/-- The file declares the type `s`, in a declaration with the comment `doc`. -/
def Declares (file : List TypeDecl) (doc : Option (List Str)) (s : TypeSpec) : Prop :=
  ∃ d ∈ file, d.doc = doc ∧ s ∈ d.specs

/-! ## Comment tags -/

/-- One item of a comment tag: a word between blanks. -/
structure TagItem where
  before : Str
  word : Str
  after : Str

/-- The item is written properly: blanks around a word that neither starts nor ends with a
blank and holds no comma. -/
def TagItem.Ok (i : TagItem) : Prop :=
  (∀ c ∈ i.before, c.isWhitespace) ∧ (∀ c ∈ i.after, c.isWhitespace) ∧
  (∀ c, i.word.head? = some c → c.isWhitespace = false) ∧
  (∀ c, i.word.getLast? = some c → c.isWhitespace = false) ∧
  ',' ∉ i.word

def TagItem.text (i : TagItem) : Str := i.before ++ i.word ++ i.after

/-- Items separated by commas. -/
def itemsText : List TagItem → Str
  | [] => []
  | [i] => i.text
  | i :: is => i.text ++ ',' :: itemsText is

/-! ## Which types are selected -/

/-- The tags in the comment of a declaration without parentheses, or in the comment before a
group. -/
def docTags (doc : Option (List Str)) : List Str := extractTags doc

/-- `Inherits file s tags`: `s` has no tags, and is the element type of a slice or array
type that has these tags, or that inherits them in turn.  Types declared as `byte` do not
count: a slice of them is a byte slice. -/
inductive Inherits (file : List TypeDecl) : TypeSpec → List Str → Prop where
  | fromTagged {doc s doc' owner len} : Declares file doc s → docTags doc = [] →
      s.typ ≠ .ident (str "byte") →
      Declares file doc' owner → docTags doc' ≠ [] → owner.typ = .array len (.ident s.name) →
      Inherits file s (docTags doc')
  | fromHeir {doc s owner tags len} : Declares file doc s → docTags doc = [] →
      s.typ ≠ .ident (str "byte") →
      Inherits file owner tags → owner.typ = .array len (.ident s.name) → Inherits file s tags

/-- The decoding half of what can be declared for a type. -/
def Member.decoding : Member → Prop
  | .pool | .unmarshalJSON | .fillFromJSON | .validate => True
  | _ => False

/-- What the tags `tags` ask for: `custom` nothing, `encode` no decoding half, `decode` no
encoding half; only structs (without the tag `transit`) have a `validate`. -/
def Wanted (s : TypeSpec) (tags : List Str) (m : Member) : Prop :=
  str "custom" ∉ tags ∧
  (m.decoding → str "encode" ∉ tags) ∧ (¬ m.decoding → str "decode" ∉ tags) ∧
  (m = .validate → (∃ fields, s.typ = .struct fields) ∧ str "transit" ∉ tags)

/-! ## Which comment counts

Comments inside groups of types included. -/

/-- The comments of a file, each with a type it stands at, in the order in which they count:
for every declaration the comment before it, once for each of its types, and then the comments
inside the group. -/
def commentOrder (file : List TypeDecl) : List (TypeSpec × List Str) :=
  file.flatMap fun d =>
    (d.specs.map fun s => (s, docTags d.doc)) ++ d.specs.map fun s => (s, docTags s.doc)

/-- `HandsOn file s t`: tags that `s` gets are handed on to `t`: `t` is `s` itself, or the
element type, without tags before its declaration, of a slice or array they are handed on to. -/
inductive HandsOn (file : List TypeDecl) (s : TypeSpec) : TypeSpec → Prop where
  | self : HandsOn file s s
  | element {o t doc len} : HandsOn file s o → o.typ = .array len (.ident t.name) →
      Declares file doc t → docTags doc = [] → t.typ ≠ .ident (str "byte") → HandsOn file s t

/-- The tags of `s` are `tags`: those of the first comment with tags whose tags are handed on
to `s`. -/
def Chosen (file : List TypeDecl) (s : TypeSpec) (tags : List Str) : Prop :=
  ∃ (i : Nat) (o : TypeSpec), (commentOrder file)[i]? = some (o, tags) ∧ tags ≠ [] ∧ HandsOn file o s ∧
    ∀ (j : Nat) (p : TypeSpec × List Str), j < i → (commentOrder file)[j]? = some p → p.2 ≠ [] →
      ¬ HandsOn file p.1 s

/-! ## Inlining -/

/-- The field has the option `inline` (see C38 for how tags are read). -/
def Inlined (f : SrcField) : Prop := (fieldTags f.tag).appendix = str "inline"

/-- A field as seen from outside the package `over` it is declared in: capitalised type
names are qualified. -/
inductive SeenFrom : Option Str → SrcField → SrcField → Prop where
  | inside {f} : SeenFrom none f f
  | qualified {p f c n} : f.typ = .ident (c :: n) → c.isUpper = true →
      SeenFrom (some p) f { f with typ := .sel p (c :: n) }
  | same {p f} : (∀ c n, f.typ = .ident (c :: n) → c.isUpper = false) → SeenFrom (some p) f f

/-- `Target pkgs over file f over' file' n`: the type of the field `f`, met in `file`, is
called `n` and declared in `file'` (of package `over'`). -/
inductive Target (pkgs : GetPackage) (over : Option Str) (file : List TypeDecl) (f : SrcField) :
    Option Str → List TypeDecl → Str → Prop where
  | here {n} : f.typ = .ident n → Target pkgs over file f over file n
  | there {p n file'} : f.typ = .sel p n → f.names = [] → pkgs p n = some file' →
      Target pkgs over file f (some p) file' n

/-- `Flat pkgs over file fields out`: `out` is `fields` with every inlined struct replaced,
in place and recursively, by its fields. -/
inductive Flat (pkgs : GetPackage) :
    Option Str → List TypeDecl → List SrcField → List SrcField → Prop where
  | nil {over file} : Flat pkgs over file [] []
  /-- an ordinary field stays -/
  | keep {over file f f' fs out} : (f.tag = none → f.names = []) → SeenFrom over f f' →
      ¬ Inlined f → Flat pkgs over file fs out → Flat pkgs over file (f :: fs) (f' :: out)
  /-- an inlined struct gives way to its fields -/
  | inline {over file f f' over' file' n doc s inner flat fs out} :
      (f.tag = none → f.names = []) → SeenFrom over f f' → Inlined f →
      Target pkgs over file f' over' file' n →
      Declares file' doc s → s.name = n → s.typ = .struct inner →
      Flat pkgs over' file' inner flat → (∀ g ∈ flat, n ∉ g.names) →
      Flat pkgs over file fs out → Flat pkgs over file (f :: fs) (flat ++ out)
  /-- unless one of them has the name of the struct itself -/
  | sameName {over file f f' over' file' n doc s inner flat fs out} :
      (f.tag = none → f.names = []) → SeenFrom over f f' → Inlined f →
      Target pkgs over file f' over' file' n →
      Declares file' doc s → s.name = n → s.typ = .struct inner →
      Flat pkgs over' file' inner flat → (∃ g ∈ flat, n ∈ g.names) →
      Flat pkgs over file fs out → Flat pkgs over file (f :: fs) (f' :: out)
  /-- a field with a name of its own, of a type of another package, stays as well -/
  | namedForeign {over file f f' p n x fs out} :
      (f.tag = none → f.names = []) → SeenFrom over f f' → Inlined f →
      f'.typ = .sel p n → f'.names = [x] →
      Flat pkgs over file fs out → Flat pkgs over file (f :: fs) (f' :: out)

end VJ
