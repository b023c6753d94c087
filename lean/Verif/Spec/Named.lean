import Verif.Spec.Decode

/-!
# Types declared as other types
-/

namespace VJ

/-- `type n m`: `n` is declared as the named type `m` (of this package or of another one). -/
def DeclaredAs (Γ : Env) (n m : Nat) : Prop := ∃ t, Γ.decl n = some (.alias t) ∧ NameOf t m

/-- `n` is declared as a type that is declared as … that is declared as `k`, in at least one step;
every type of the chain before `k` satisfies `P`. -/
inductive DefinedFrom (Γ : Env) (P : Nat → Prop) : Nat → Nat → Prop
  | one {n k : Nat} (hp : P n) (h : DeclaredAs Γ n k) : DefinedFrom Γ P n k
  | more {n m k : Nat} (hp : P n) (h : DeclaredAs Γ n m) (rest : DefinedFrom Γ P m k) : DefinedFrom Γ P n k

/-- `k` is declared as a predeclared type, as `time.Time` or as `uuid.UUID`. -/
def ScalarDecl (Γ : Env) (k : Nat) : Prop :=
  (∃ p, Γ.decl k = some (.alias (.prim p))) ∨ Γ.decl k = some (.alias .time) ∨ Γ.decl k = some (.alias .uuid)

/-- `k` is declared as a struct. -/
def StructDecl (Γ : Env) (k : Nat) : Prop := ∃ strict fields, Γ.decl k = some (.struct strict fields)

/-- Rounding to `float32` what was rounded already changes nothing. -/
def RoundsOnce [Ext] : Prop := ∀ f, Ext.toFloat32 (Ext.toFloat32 f) = Ext.toFloat32 f

end VJ
