import Verif.Spec.Encode

/-!
# Packages and values whose encoding always ends
-/

namespace VJ
variable [Ext]

/-- Every type of `S` that is declared here has generated `MarshalTo` and `IsZero` methods that
are valid Go; hand-written ones return. -/
structure EncoderSet (Γ : Env) (X : Nat → GoVal → Prop) (S : Nat → Prop) : Prop extends TypeSet Γ S where
  encoders : ∀ n, S n → Γ.decl n ≠ none → HasEncoder Γ n
  zeros : ∀ n d, S n → Γ.decl n = some d → ∃ k ir, genZero Γ k d = .ok ir
  foreign : ∀ n v w, S n → Γ.decl n = none → X n v → ∃ r, (Γ.ext n).marshalTo (some v) w = .ok r
  foreignNil : ∀ n w, S n → Γ.decl n = none → ∃ r, (Γ.ext n).marshalTo none w = .ok r
  foreignZero : ∀ n v, S n → Γ.decl n = none → X n v → ∃ b, (Γ.ext n).isZero v = .ok b

/-- The hand-written encoders only append and never fail, and no struct embeds a type that has
one. -/
structure ForeignFine (Γ : Env) (X : Nat → GoVal → Prop) (S : Nat → Prop) : Prop where
  tame : ForeignTame Γ
  val : ∀ n v w r, S n → Γ.decl n = none → X n v → w.err = none → (Γ.ext n).marshalTo (some v) w = .ok r → r.1 = none ∧ r.2.err = none
  nil : ∀ n w r, S n → Γ.decl n = none → w.err = none → (Γ.ext n).marshalTo none w = .ok r → r.1 = none ∧ r.2.err = none
  embeds : ∀ n strict fields fd m, S n → Γ.decl n = some (.struct strict fields) → fd ∈ fields → fd.tags.jsonName = [] →
    ByMethod Γ fd.typ m → Γ.decl m ≠ none

/-- no nil pointer to a UUID among what is written of the value -/
def NoNilUUID (Γ : Env) (T : TExpr) (V : GoVal) : Prop := ¬ Written Γ T V (.star .uuid) .nil

/-- the times among what is written of the value that are of a type declared as `time.Time`
have a text (their year is in range) -/
def TimesOK (Γ : Env) (T : TExpr) (V : GoVal) : Prop :=
  ∀ e n tm, Written Γ T V e (.time tm) → NameOf e n → Γ.decl n = some (.alias .time) → ∃ s, Ext.timeText tm = some s

end VJ
