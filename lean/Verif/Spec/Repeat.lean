import Verif.Spec.Typing

/-!
# Decoding the same document again
-/

namespace VJ

variable [Ext]

/-- A set of types of a package, together with the types it uses; types declared elsewhere, or with
hand-written methods, can be decoded twice. -/
structure RepeatSet (Γ : Env) (S : Nat → Prop) : Prop where
  closed : ∀ n d t m, S n → Γ.decl n = some d → t ∈ d.types → m ∈ t.names → S m
  noAnon : ∀ n d t, S n → Γ.decl n = some d → t ∈ d.types → t.anon = false
  foreign : ∀ n v s s', S n → Γ.decl n = none → (Γ.ext n).fill v s = .ok (none, s') → (Γ.ext n).fill v s' = .ok (none, s')

/-- The document was decoded into the receiver `s` any number of times, at least once, always
without error; the receiver is now `s'`. -/
inductive DecodedAgain (Γ : Env) (n : Nat) (v : JV) : GoVal → GoVal → Prop
  | once {s s' : GoVal} (h : Fills Γ n v s none s') : DecodedAgain Γ n v s s'
  | again {s s' s'' : GoVal} (h : DecodedAgain Γ n v s s') (h' : Fills Γ n v s' none s'') : DecodedAgain Γ n v s s''

end VJ
