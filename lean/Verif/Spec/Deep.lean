import Verif.Spec.Encode

/-!
# How deep the documents of a type can go
-/

namespace VJ

/-- an embedded struct, whose members become those of the struct it is embedded in -/
def EmbeddedField (Γ : Env) (fd : FieldDecl) : Prop := fd.tags.jsonName = [] ∧ ∃ n, ByMethod Γ fd.typ n

/-- types whose documents are scalars -/
inductive FlatType : TExpr → Prop
  | prim (p : Prim) : FlatType (.prim p)
  | time : FlatType .time
  | uuid : FlatType .uuid
  | bytes : FlatType (.slice (.prim .byte))
  | fixedBytes (len : Nat) : FlatType (.array len (.prim .byte))

/-- `Nests Γ D k t`: the declarations show that values of type `t` are never nested more than `k`
deep.  A scalar is one deep; slices, arrays, maps and structs are one deeper than what is in them;
pointers and names add nothing.  `D` bounds the documents of types of other packages.  A type that
contains itself has no such bound. -/
inductive Nests (Γ : Env) (D : Nat → Nat) : Nat → TExpr → Prop
  | flat {k : Nat} {t : TExpr} (h : FlatType t) : Nests Γ D (k + 1) t
  | ptr {k : Nat} {t : TExpr} (h : Nests Γ D k t) : Nests Γ D k (.star t)
  | slice {k : Nat} {t : TExpr} (h : Nests Γ D k t) : Nests Γ D (k + 1) (.slice t)
  | array {k len : Nat} {t : TExpr} (h : Nests Γ D k t) : Nests Γ D (k + 1) (.array len t)
  | map {k : Nat} {t : TExpr} (h : Nests Γ D k t) : Nests Γ D (k + 1) (.map t)
  | alias {k n : Nat} {t u : TExpr} (ht : NameOf t n) (hd : Γ.decl n = some (.alias u)) (h : Nests Γ D k u) : Nests Γ D k t
  | struct {k n : Nat} {t : TExpr} {strict : Bool} {fields : List FieldDecl} (ht : NameOf t n) (hd : Γ.decl n = some (.struct strict fields))
      (extra : FieldDecl → Nat) (hx : ∀ fd ∈ fields, extra fd = 0 ∨ (extra fd = 1 ∧ EmbeddedField Γ fd))
      (h : ∀ fd ∈ fields, Nests Γ D (k + extra fd) fd.typ) : Nests Γ D (k + 1) t
  | foreign {k n : Nat} {t : TExpr} (ht : NameOf t n) (hd : Γ.decl n = none) (h : D n ≤ k + 1) : Nests Γ D (k + 1) t

end VJ
