import Verif.Spec.Api

/-!
# Encoders that only append
-/

namespace VJ

/-- put text in front of what a writer holds -/
def W.after (p : Str) (w : W) : W := ⟨p ++ w.buf, w.err⟩

/-- the same for the writer an encoder leaves -/
def Out.after {α : Type} (p : Str) : Out (α × W) → Out (α × W)
  | .ok (a, w) => .ok (a, w.after p)
  | .panic => .panic
  | .loop => .loop
  | .unsupp => .unsupp

/-- `Tame f`: what `f` does does not depend on the text written before, which it leaves alone,
and an error recorded in the writer stays. -/
structure Tame {α : Type} (f : W → Out (α × W)) : Prop where
  frame : ∀ p w, f (w.after p) = (f w).after p
  keeps : ∀ w a w' x, f w = .ok (a, w') → w.err = some x → w'.err = some x

/-- hand-written encoders (of types that are not part of the package) only append -/
def ForeignTame (Γ : Env) : Prop := ∀ n r, Γ.decl n = none → Tame ((Γ.ext n).marshalTo r)

end VJ
