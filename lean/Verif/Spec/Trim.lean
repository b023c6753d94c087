import Verif.Spec.RoundTrip

/-!
# Spare capacity

`GoVal.trim` (in `Spec/RoundTrip.lean`) is a value without the unused capacity of its slices.
-/

namespace VJ

/-- `v` and `v'` differ at most in what lies beyond the length of their slices. -/
def SameVisible (v v' : GoVal) : Prop := v.trim = v'.trim

/-- Hand-written methods and methods of types of other packages do not look there. -/
structure SpareBlind (Γ : Env) : Prop where
  marshalTo : ∀ n v v' w, Γ.decl n = none → SameVisible v v' → (Γ.ext n).marshalTo (some v) w = (Γ.ext n).marshalTo (some v') w
  isZero : ∀ n v v', Γ.decl n = none → SameVisible v v' → (Γ.ext n).isZero v = (Γ.ext n).isZero v'

end VJ
