import Verif.Spec.TextApi
import Mathlib.Data.List.Forall2

/-!
# Types declared alike

Two type expressions, fields, declarations are the same up to names that `R` relates; `R` is any
relation between the names of one package and the names of another.
-/

namespace VJ

/-- the same type expression, up to names related by `R` -/
inductive SameT (R : Nat → Nat → Prop) : TExpr → TExpr → Prop
  | prim (p : Prim) : SameT R (.prim p) (.prim p)
  | named {n m : Nat} (h : R n m) : SameT R (.named n) (.named m)
  | sel {n m : Nat} (h : R n m) : SameT R (.sel n) (.sel m)
  | time : SameT R .time .time
  | uuid : SameT R .uuid .uuid
  | structT : SameT R .structT .structT
  | star {t u : TExpr} (h : SameT R t u) : SameT R (.star t) (.star u)
  | slice {t u : TExpr} (h : SameT R t u) : SameT R (.slice t) (.slice u)
  | array (len : Nat) {t u : TExpr} (h : SameT R t u) : SameT R (.array len t) (.array len u)
  | map {t u : TExpr} (h : SameT R t u) : SameT R (.map t) (.map u)

/-- the same type and the same tags -/
def SameField (R : Nat → Nat → Prop) (f g : FieldDecl) : Prop := SameT R f.typ g.typ ∧ f.tags = g.tags

/-- the same declaration -/
inductive SameDecl (R : Nat → Nat → Prop) : Decl → Decl → Prop
  | struct (strict : Bool) {fs gs : List FieldDecl} (h : List.Forall₂ (SameField R) fs gs) :
      SameDecl R (.struct strict fs) (.struct strict gs)
  | alias {t u : TExpr} (h : SameT R t u) : SameDecl R (.alias t) (.alias u)

/-- Related names are declared alike; or neither is declared in its package and they have the same
methods. -/
def DeclaredAlike (R : Nat → Nat → Prop) (Γ Δ : Env) : Prop :=
  ∀ n m, R n m →
    (∃ d e, Γ.decl n = some d ∧ Δ.decl m = some e ∧ SameDecl R d e) ∨
    (Γ.decl n = none ∧ Δ.decl m = none ∧ Γ.ext n = Δ.ext m)

/-- the names a type expression mentions -/
inductive TypeMentions : TExpr → Nat → Prop
  | named (n : Nat) : TypeMentions (.named n) n
  | sel (n : Nat) : TypeMentions (.sel n) n
  | star {t : TExpr} {n : Nat} (h : TypeMentions t n) : TypeMentions (.star t) n
  | slice {t : TExpr} {n : Nat} (h : TypeMentions t n) : TypeMentions (.slice t) n
  | array (len : Nat) {t : TExpr} {n : Nat} (h : TypeMentions t n) : TypeMentions (.array len t) n
  | map {t : TExpr} {n : Nat} (h : TypeMentions t n) : TypeMentions (.map t) n

/-- the names a declaration mentions -/
inductive DeclMentions : Decl → Nat → Prop
  | field {strict : Bool} {fs : List FieldDecl} {f : FieldDecl} {n : Nat} (hf : f ∈ fs)
      (h : TypeMentions f.typ n) : DeclMentions (.struct strict fs) n
  | alias {t : TExpr} {n : Nat} (h : TypeMentions t n) : DeclMentions (.alias t) n

/-- Type `n` is `m`, or is declared in terms of a type that needs `m`. -/
inductive Needs (Γ : Env) : Nat → Nat → Prop
  | self (n : Nat) : Needs Γ n n
  | step {n i m : Nat} {d : Decl} (hd : Γ.decl n = some d) (hi : DeclMentions d i) (h : Needs Γ i m) :
      Needs Γ n m

/-- a type expression with other names -/
def renameT (σ : Nat → Nat) : TExpr → TExpr
  | .named n => .named (σ n)
  | .sel n => .sel (σ n)
  | .star t => .star (renameT σ t)
  | .slice t => .slice (renameT σ t)
  | .array len t => .array len (renameT σ t)
  | .map t => .map (renameT σ t)
  | t => t

/-- a declaration with other names -/
def renameDecl (σ : Nat → Nat) : Decl → Decl
  | .struct strict fs => .struct strict (fs.map fun f => { f with typ := renameT σ f.typ })
  | .alias t => .alias (renameT σ t)

/-- `n` and `m` behave alike: every generated method has the same outcomes. -/
structure SameBehaviour [Ext] (Γ : Env) (n : Nat) (Δ : Env) (m : Nat) : Prop where
  unmarshal : ∀ data s e s', Unmarshals Γ n data s e s' ↔ Unmarshals Δ m data s e s'
  fill : ∀ v s r, FillsTo Γ n v s r ↔ FillsTo Δ m v s r
  marshalTo : ∀ recv w e w', MarshalsTo Γ n recv w e w' ↔ MarshalsTo Δ m recv w e w'
  marshal : ∀ recv r, Marshals Γ n recv r ↔ Marshals Δ m recv r
  isZero : ∀ v b, IsZeroIs Γ n v b ↔ IsZeroIs Δ m v b
  reset : ∀ v v', ResetsTo Γ n v v' ↔ ResetsTo Δ m v v'
  zero : ∀ z, ZeroIs Γ n z ↔ ZeroIs Δ m z

end VJ
