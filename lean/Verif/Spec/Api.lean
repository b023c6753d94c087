import Verif.Model.Methods

/-!
# The generated methods, as relations

What calling a generated method does, without mentioning fuel: a call has an outcome when
it has it for some bound on nested calls.  `Props/Determinism.lean` shows that there is at
most one outcome.
-/

namespace VJ

variable [Ext]

/-- `x.FillFromJSON(v)`, on a receiver `x` of type `n` holding `s`, ends with outcome `r`:
returned error and receiver afterwards, or a panic. -/
def FillsTo (Γ : Env) (n : Nat) (v : JV) (s : GoVal) (r : Out (Option Err × GoVal)) : Prop :=
  r ≠ .loop ∧ ∃ k, (Γ.methods k n).fill v s = r

/-- `x.FillFromJSON(v)` returns `e` (`none` is nil) and leaves `s'` in the receiver. -/
def Fills (Γ : Env) (n : Nat) (v : JV) (s : GoVal) (e : Option Err) (s' : GoVal) : Prop :=
  ∃ k, (Γ.methods k n).fill v s = .ok (e, s')

/-- A decoder is generated for type `n` and what it emits is valid Go. -/
def HasDecoder (Γ : Env) (n : Nat) : Prop :=
  ∃ d k ir, Γ.decl n = some d ∧ genFill Γ k d = .ok ir

/-- An encoder is generated for type `n` and what it emits is valid Go. -/
def HasEncoder (Γ : Env) (n : Nat) : Prop :=
  ∃ d ir, Γ.decl n = some d ∧ genMarshal Γ d = .ok ir

/-- `x.MarshalTo(w)` returns `e` and leaves `w'`; `recv = none` is a nil receiver. -/
def MarshalsTo (Γ : Env) (n : Nat) (recv : Option GoVal) (w : W) (e : Option EErr) (w' : W) : Prop :=
  ∃ k, (Γ.methods k n).marshalTo recv w = .ok (e, w')

/-- `x.MarshalJSON()` returns `r`. -/
def Marshals (Γ : Env) (n : Nat) (recv : Option GoVal) (r : Except EErr Str) : Prop :=
  ∃ k, marshalJSON (Γ.methods k n) recv = .ok r

/-- `x.MarshalTo(w)` panics. -/
def AppendPanics (Γ : Env) (n : Nat) (recv : Option GoVal) (w : W) : Prop :=
  ∃ k, (Γ.methods k n).marshalTo recv w = .panic

/-- `x.MarshalJSON()` panics. -/
def MarshalPanics (Γ : Env) (n : Nat) (recv : Option GoVal) : Prop :=
  ∃ k, marshalJSON (Γ.methods k n) recv = .panic

/-- `x.IsZero()` returns `b`. -/
def IsZeroIs (Γ : Env) (n : Nat) (v : GoVal) (b : Bool) : Prop :=
  ∃ k, (Γ.methods k n).isZero v = .ok b

/-- `x.Reset()` leaves `v'`. -/
def ResetsTo (Γ : Env) (n : Nat) (v v' : GoVal) : Prop :=
  ∃ k, (Γ.methods k n).reset v = .ok v'

/-- The Go conversion `T(x)` gives `y`. -/
def ConvIs (Γ : Env) (n : Nat) (x y : GoVal) : Prop :=
  ∃ k, (Γ.methods k n).conv x = .ok y

/-- A variable declared with type expression `t` holds `z`. -/
def ZeroOf (Γ : Env) (t : TExpr) (z : GoVal) : Prop :=
  ∃ k, zeroT (Γ.methods k) t = .ok z

/-- `var x T` holds `z`. -/
def ZeroIs (Γ : Env) (n : Nat) (z : GoVal) : Prop :=
  ∃ k, (Γ.methods k n).zero = .ok z

end VJ
