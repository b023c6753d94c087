import Verif.Model.HeapEnc
import Verif.Model.HeapReset

/-!
# The generated methods in memory
-/

namespace VJ

/-- Methods of one declared type, see `declMethods`. -/
def hdeclMethods [Ext] (Γ : Env) (k : Nat) (M : Nat → HMethods) (d : Decl) : HMethods where
  zero := match d with
    | .struct _ fields => do
      let zs ← hzeroFields M fields
      return .struct zs
    | .alias t => hzeroT M t
  conv := match d with
    | .struct _ _ => fun v => .ok v
    | .alias t => hconvT M t
  fill v p h := do
    let ir ← genFill Γ k d
    hrunFill M ir v p h
  marshalTo recv h w := do
    let ir ← genMarshal Γ d
    hrunMarshal M ir recv h w
  isZero v h := do
    let ir ← genZero Γ k d
    hrunZero M ir v h
  reset p h := do
    let ir ← genResetDecl Γ k d
    hrunResetDecl M ir p h

/-- Methods in memory with calls nested at most `k` deep; `X` gives those of types without
a declaration. -/
def Env.hmethods [Ext] (Γ : Env) (X : Nat → HMethods) : Nat → Nat → HMethods
  | 0, _ => .loop
  | k + 1, n =>
    match Γ.decl n with
    | some d => hdeclMethods Γ k (Γ.hmethods X k) d
    | none => X n

end VJ
