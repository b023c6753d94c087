import Verif.Model.RunMarshal

/-!
# The generated methods

`Γ.methods k n`: the methods of type `n`, where calls nest at most `k` deep.  A result other
than `.loop` does not depend on `k` (`Proof/Mono.lean`).
-/

namespace VJ

/-- zero values of struct fields -/
def zeroFields (M : Nat → Methods) : List FieldDecl → Out (List GoVal)
  | [] => .ok []
  | fd :: fds => do
    let z ← zeroT M fd.typ
    let zs ← zeroFields M fds
    return z :: zs

/-- Methods of one declared type, given the methods of all types (generated code calls the
methods of other types; generator/codegen/codegen.go:45-99 and the `*Func` methods of
codegen/{struct,map,array,byteslice,transit}.go). -/
def declMethods [Ext] (Γ : Env) (k : Nat) (M : Nat → Methods) (d : Decl) : Methods where
  zero := match d with
    | .struct _ fields => do
      let zs ← zeroFields M fields
      return .struct zs
    | .alias t => zeroT M t
  conv := match d with
    | .struct _ _ => fun v => .ok v
    | .alias t => convT M t
  fill v s := do
    let ir ← genFill Γ k d
    runFill M ir v s
  marshalTo recv w := do
    let ir ← genMarshal Γ d
    runMarshal M ir recv w
  isZero v := do
    let ir ← genZero Γ k d
    runZero M ir v
  reset v := do
    let ir ← genResetDecl Γ k d
    runResetDecl M ir v

/-- Methods with calls nested at most `k` deep. -/
def Env.methods [Ext] (Γ : Env) : Nat → Nat → Methods
  | 0, _ => .loop
  | k + 1, n =>
    match Γ.decl n with
    | some d => declMethods Γ k (Γ.methods k) d
    | none => Γ.ext n

end VJ
