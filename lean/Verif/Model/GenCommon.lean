import Verif.Model.Types

/-!
# Generator: name resolution and the field factory

generator/codegen/helpers/gotypes.go and generator/codegen/field/fields.go:41-93.
-/

namespace VJ

namespace Env

/-- `helpers.DenotedIdent` (helpers/gotypes.go:18-26): one step; a name that is not
declared in the same file denotes itself. -/
def denotedIdent (Γ : Env) (n : Nat) (self : TExpr) : TExpr :=
  match Γ.decl n with
  | some d => d.spec
  | none => self

/-- `helpers.DenotedType` (helpers/gotypes.go:5-16). -/
def denoted (Γ : Env) : TExpr → TExpr
  | .named n => Γ.denotedIdent n (.named n)
  | .sel n => Γ.denotedIdent n (.sel n)
  | t => t

end Env

/-- `helpers.IsOrdinal` (helpers/asthelpers.go:19-24) -/
def TExpr.isOrdinal : TExpr → Bool
  | .prim _ => true
  | _ => false

/-- `helpers.IsIdent(t, "byte")` (helpers/asthelpers.go:12-17) -/
def TExpr.isByte : TExpr → Bool
  | .prim .byte => true
  | _ => false

/-- The field factory `field.Field` (field/fields.go:17-38).  `hasField` says whether
`f.field` is set; `filled` and `isStarType` are results of `TypedValue` in the model. -/
structure Fld where
  hasField : Bool
  expr : TExpr
  refx : TExpr
  tags : Tags
  isStar : Bool
  isNullable : Bool
  dontCheckErr : Bool

/-- `prepareRef` and `fillDenotedType` (field/fields.go:64-89). -/
def Fld.prepare (Γ : Env) (hasField : Bool) (typ : TExpr) (tags : Tags) (isStar dontCheck : Bool) : Fld :=
  let expr := match typ with
    | .star x => x
    | t => t
  let star := match typ with
    | .star _ => true
    | _ => isStar
  let nullable := match typ with
    | .star _ | .slice _ | .array _ _ | .map _ | .structT => true
    | _ => false
  let refx :=
    if (Γ.denoted expr).isOrdinal then Γ.denoted expr
    else match expr with
      | .named n => Γ.denotedIdent n (.named n)
      | t => t
  { hasField, expr, refx, tags, isStar := star, isNullable := nullable, dontCheckErr := dontCheck }

end VJ
