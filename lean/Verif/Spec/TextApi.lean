import Verif.Model.Parser
import Verif.Spec.Codecs
import Verif.Spec.LooseText
import Verif.Spec.Typing

/-!
# The generated methods on text
-/

namespace VJ

/-- `x.UnmarshalJSON(data)`, on a receiver of type `n` holding `s`, returns `e` (`none` is nil)
and leaves `s'`. -/
def Unmarshals [Ext] (Γ : Env) (n : Nat) (data : Str) (s : GoVal) (e : Option Err) (s' : GoVal) : Prop :=
  ∃ k, unmarshalJSON (Γ.methods k n) data s = .ok (e, s')

/-- `x.UnmarshalJSON(data)` panics. -/
def UnmarshalPanics [Ext] (Γ : Env) (n : Nat) (data : Str) (s : GoVal) : Prop :=
  ∃ k, unmarshalJSON (Γ.methods k n) data s = .panic

/-- The text is not JSON, not even with the liberties of `Spec/LooseText.lean`. -/
def NotJSON (data : Str) : Prop := ∀ v, ¬ LooseDocument v data

end VJ
