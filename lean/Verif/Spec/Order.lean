import Verif.Spec.Encode

/-!
# The order of map entries

Go iterates over a map in any order. A map value of the model lists its entries in the order of
the iteration, so another order is another listing: `Shuffled v v'`. On the other side stand
documents that differ in the order of object members only: `SameDoc`.
-/

namespace VJ

/-- `v'` is `v`, with the entries of its maps, at any depth, in another order -/
inductive Shuffled : GoVal → GoVal → Prop
  | refl (v : GoVal) : Shuffled v v
  | ptr {v w : GoVal} (h : Shuffled v w) : Shuffled (.ptr v) (.ptr w)
  | slice {es es' sp : List GoVal} (hl : es'.length = es.length)
      (h : ∀ (i : Nat) (x y : GoVal), es[i]? = some x → es'[i]? = some y → Shuffled x y) : Shuffled (.slice es sp) (.slice es' sp)
  | arr {es es' : List GoVal} (hl : es'.length = es.length)
      (h : ∀ (i : Nat) (x y : GoVal), es[i]? = some x → es'[i]? = some y → Shuffled x y) : Shuffled (.arr es) (.arr es')
  | struct {es es' : List GoVal} (hl : es'.length = es.length)
      (h : ∀ (i : Nat) (x y : GoVal), es[i]? = some x → es'[i]? = some y → Shuffled x y) : Shuffled (.struct es) (.struct es')
  /-- `mid` has the entries of `kvs` in the same order with shuffled values, `kvs'` lists `mid` in another order -/
  | map {kvs mid kvs' : List (Str × GoVal)} (hk : mid.map (·.1) = kvs.map (·.1))
      (h : ∀ (i : Nat) (a b : Str × GoVal), kvs[i]? = some a → mid[i]? = some b → Shuffled a.2 b.2)
      (hp : mid.Perm kvs') : Shuffled (.map kvs) (.map kvs')

/-- the two documents differ in the order of object members only -/
inductive SameDoc : JV → JV → Prop
  | refl (v : JV) : SameDoc v v
  | arr {l l' : List JV} (hl : l'.length = l.length)
      (h : ∀ (i : Nat) (x y : JV), l[i]? = some x → l'[i]? = some y → SameDoc x y) : SameDoc (.arr l) (.arr l')
  | obj {kvs mid kvs' : List (Str × JV)} (hk : mid.map (·.1) = kvs.map (·.1))
      (h : ∀ (i : Nat) (a b : Str × JV), kvs[i]? = some a → mid[i]? = some b → SameDoc a.2 b.2)
      (hp : mid.Perm kvs') : SameDoc (.obj kvs) (.obj kvs')

/-- Hand-written methods and types of other packages do not depend on the order of map entries. -/
structure OrderBlind (Γ : Env) (X : Nat → GoVal → Prop) (F : Nat → Option GoVal → JV → Prop) : Prop where
  typed : ∀ n v v', Γ.decl n = none → Shuffled v v' → X n v → X n v'
  isZero : ∀ n v v', Γ.decl n = none → Shuffled v v' → (Γ.ext n).isZero v' = (Γ.ext n).isZero v
  docs : ∀ n v v' jv, Γ.decl n = none → Shuffled v v' → F n (some v) jv → ∃ jv', F n (some v') jv' ∧ SameDoc jv jv'

end VJ
