import Verif.Spec.Typing

/-!
# Zero values, and `IsZero`
-/

namespace VJ

/-- Somewhere in the value there is a thing that Go's zero value does not have but that a test
for emptiness may not see: the float `-0`, the zero instant in another time zone, or a slice or
map that is empty but not nil. -/
inductive Untidy : GoVal → Prop
  | negZero : Untidy (.float 0x8000000000000000)
  | location {off : Int} (h : off ≠ 0) : Untidy (.time ⟨0, off⟩)
  | emptySlice (sp : List GoVal) : Untidy (.slice [] sp)
  | emptyBytes : Untidy (.bytes [])
  | emptyMap : Untidy (.map [])
  | struct {vs : List GoVal} {v : GoVal} (hv : v ∈ vs) (h : Untidy v) : Untidy (.struct vs)
  | arr {vs : List GoVal} {v : GoVal} (hv : v ∈ vs) (h : Untidy v) : Untidy (.arr vs)

/-- Values of the type are tested with Go's `==` against a constant: scalars, strings, UUIDs,
pointers, slices, maps, and names for such types. -/
inductive Compares (Γ : Env) : TExpr → Prop
  | prim (p : Prim) : Compares Γ (.prim p)
  | uuid : Compares Γ .uuid
  | star (t : TExpr) : Compares Γ (.star t)
  | slice (t : TExpr) : Compares Γ (.slice t)
  | map (t : TExpr) : Compares Γ (.map t)
  | name {n : Nat} {u : TExpr} (hd : Γ.decl n = some (.alias u)) (h : Compares Γ u) : Compares Γ (.named n)

/-- What the generated `IsZero` relies on. -/
structure ZeroPackage [Ext] (Γ : Env) (X : Nat → GoVal → Prop) (S : Nat → Prop) : Prop where
  closed : ∀ n d t m, S n → Γ.decl n = some d → t ∈ d.types → m ∈ t.names → S m
  /-- `IsZero` is generated and what is generated is valid Go -/
  generated : ∀ n d, S n → Γ.decl n = some d → ∃ k ir, genZero Γ k d = .ok ir
  /-- types declared elsewhere, or with hand-written methods, have a right `IsZero` -/
  foreign : ∀ n v, S n → Γ.decl n = none → X n v → ∃ b, (Γ.ext n).isZero v = .ok b ∧ (b = true ↔ (Γ.ext n).zero = .ok v)

/-- No field of a struct is written with a fixed-length array type, and no fixed-length array
type is declared with elements that have a method `IsZero` of their own. -/
def NoArrayTests (Γ : Env) (S : Nat → Prop) : Prop :=
  (∀ n strict fields fd len t, S n → Γ.decl n = some (.struct strict fields) → fd ∈ fields → fd.typ ≠ .array len t) ∧
  (∀ n len t, S n → Γ.decl n = some (.alias (.array len t)) → Compares Γ t)

end VJ
