import Verif.Spec.Encode

/-!
# Which values the encoder makes invalid JSON of
-/

namespace VJ
variable [Ext]

/-- NaN or one of the infinities: the bits of the exponent are all set. -/
def Nonfinite (f : F64) : Prop := f &&& 0x7FF0000000000000 = 0x7FF0000000000000

/-- How floats are printed: the finite ones as JSON numbers, the others as words. -/
structure FloatTexts : Prop where
  finite : ∀ f, ¬ Nonfinite f → NumText (Ext.fmtFloat f)
  nonfinite : ∀ f, Nonfinite f → Ext.fmtFloat f = str "NaN" ∨ Ext.fmtFloat f = str "+Inf" ∨ Ext.fmtFloat f = str "-Inf"

/-- A comma goes missing: a field is written, others were written before it, and all of those
were nil pointers written as `null`. -/
def MissingComma (Γ : Env) (fields : List FieldDecl) (gs : List GoVal) : Prop :=
  ∃ (i j : Nat) (fi fj : FieldDecl) (gi gj : GoVal), i < j ∧ fields[i]? = some fi ∧ gs[i]? = some gi ∧ fields[j]? = some fj ∧ gs[j]? = some gj ∧
    ¬ Omitted Γ fi gi ∧ ¬ Omitted Γ fj gj ∧
    ∀ (l : Nat) (fl : FieldDecl) (gl : GoVal), l < j → fields[l]? = some fl → gs[l]? = some gl → ¬ Omitted Γ fl gl → Forgotten Γ fl gl

/-- An embedded struct is not zero and has nothing to contribute: its document is not an object,
or is one without members. -/
def EmptySplice (Γ : Env) (F : Nat → Option GoVal → JV → Prop) (fd : FieldDecl) (g : GoVal) : Prop :=
  fd.tags.jsonName = [] ∧ ∃ n jv, ByMethod Γ fd.typ n ∧ IsZeroIs Γ n g false ∧ Enc Γ F (.decl n) g jv ∧ ∀ kv kvs, jv ≠ .obj (kv :: kvs)

/-- Somewhere in what is written for the value there is a float that is not finite, a struct that
lacks a comma, or an empty embedded struct. -/
def Trouble (Γ : Env) (F : Nat → Option GoVal → JV → Prop) (T : TExpr) (V : GoVal) : Prop :=
  (∃ p f, Written Γ T V (.prim p) (.float f) ∧ Nonfinite f) ∨
  ∃ e n strict fields gs, Written Γ T V e (.struct gs) ∧ NameOf e n ∧ Γ.decl n = some (.struct strict fields) ∧
    (MissingComma Γ fields gs ∨ ∃ (i : Nat) (fd : FieldDecl) (g : GoVal), fields[i]? = some fd ∧ gs[i]? = some g ∧ EmptySplice Γ F fd g)

/-- Hand-written encoders that write an empty object write it without whitespace. -/
def CompactForeign (Γ : Env) (S : Nat → Prop) : Prop :=
  ∀ n r w s, S n → Γ.decl n = none → w.err = none → (Γ.ext n).marshalTo r w = .ok (none, w.raw s) → Json (.obj []) s → s = str "{}"

end VJ
