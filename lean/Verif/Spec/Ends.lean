import Verif.Spec.Front

/-!
# Which files the generator can cope with

Stated on the declarations of a source file alone.
-/

namespace VJ

/-- `t` is the element type of the slice or array type `o`, is declared in the file, has no tags
before its declaration and is not a name for `byte`. -/
def ElementType (file : List TypeDecl) (o t : TypeSpec) : Prop :=
  ∃ len doc, o.typ = .array len (.ident t.name) ∧ Declares file doc t ∧ docTags doc = [] ∧
    t.typ ≠ .ident (str "byte")

/-- Methods can be made for the type `s` with these tags: for a struct its fields can be
flattened (or its tags make it a name for its type, `transit`), for a slice or array methods can
be made for its element type as well, when that has no tags; types other than structs, maps,
slices, arrays and names are out. -/
inductive Feasible (pkgs : GetPackage) (file : List TypeDecl) (tags : List Str) : TypeSpec → Prop where
  | struct {s fields flat} : s.typ = .struct fields → Flat pkgs none file fields flat → Feasible pkgs file tags s
  | transit {s fields} : s.typ = .struct fields → str "transit" ∈ tags → Feasible pkgs file tags s
  | map {s val} : s.typ = .map val → Feasible pkgs file tags s
  | list {s len elt} : s.typ = .array len elt → (∀ t, ElementType file s t → Feasible pkgs file tags t) →
      Feasible pkgs file tags s
  | name {s n} : s.typ = .ident n → Feasible pkgs file tags s
  | foreign {s p n} : s.typ = .sel p n → Feasible pkgs file tags s

/-- Fields of a struct, with the package and the file they stand in. -/
abbrev FieldsAt := Option Str × List TypeDecl × List SrcField

/-- One of the fields inlines a struct with the fields `y`. -/
def InlineStep (pkgs : GetPackage) (x y : FieldsAt) : Prop :=
  ∃ f ∈ x.2.2, ∃ f' n doc s, SeenFrom x.1 f f' ∧ Inlined f ∧ Target pkgs x.1 x.2.1 f' y.1 y.2.1 n ∧
    Declares y.2.1 doc s ∧ s.name = n ∧ s.typ = .struct y.2.2

/-- Structs inline structs inline structs, without end. -/
def EndlessInlining (pkgs : GetPackage) (x : FieldsAt) : Prop :=
  ∃ c : Nat → FieldsAt, c 0 = x ∧ ∀ i, InlineStep pkgs (c i) (c (i + 1))

/-- Slices of slices of slices, by name and without end. -/
def EndlessElements (file : List TypeDecl) (s : TypeSpec) : Prop :=
  ∃ c : Nat → TypeSpec, c 0 = s ∧ ∀ i, ElementType file (c i) (c (i + 1))

end VJ
