import Verif.Spec.Order
import Verif.Spec.Decode

/-!
# Documents that say the same, values that are the same

`SameDoc` (Spec/Order.lean) relates documents that differ in the order of object members only, at any
depth.  Here is what it means for two values to be the same, and which documents repeat no key.
-/

namespace VJ

/-- The two values have the same contents.  Go maps have no order: two maps are the same if they have the
same keys and, under every key, the same value. -/
inductive SameValue : GoVal → GoVal → Prop
  | refl (v : GoVal) : SameValue v v
  | ptr {v w : GoVal} (h : SameValue v w) : SameValue (.ptr v) (.ptr w)
  | slice {es es' sp sp' : List GoVal} (hl : es'.length = es.length)
      (h : ∀ (i : Nat) (x y : GoVal), es[i]? = some x → es'[i]? = some y → SameValue x y) (hs : sp'.length = sp.length)
      (hh : ∀ (i : Nat) (x y : GoVal), sp[i]? = some x → sp'[i]? = some y → SameValue x y) : SameValue (.slice es sp) (.slice es' sp')
  | arr {es es' : List GoVal} (hl : es'.length = es.length)
      (h : ∀ (i : Nat) (x y : GoVal), es[i]? = some x → es'[i]? = some y → SameValue x y) : SameValue (.arr es) (.arr es')
  | struct {es es' : List GoVal} (hl : es'.length = es.length)
      (h : ∀ (i : Nat) (x y : GoVal), es[i]? = some x → es'[i]? = some y → SameValue x y) : SameValue (.struct es) (.struct es')
  | map {kvs kvs' : List (Str × GoVal)} (hk : ∀ key, (mapGet key kvs').isSome = (mapGet key kvs).isSome)
      (h : ∀ (key : Str) (x y : GoVal), mapGet key kvs = some x → mapGet key kvs' = some y → SameValue x y) :
      SameValue (.map kvs) (.map kvs')

/-- no object in the document, at any depth, has two members with the same key -/
inductive NoRepeats : JV → Prop
  | null : NoRepeats .null
  | bool (b : Bool) : NoRepeats (.bool b)
  | num (s : Str) : NoRepeats (.num s)
  | str (s : Str) : NoRepeats (.str s)
  | arr {l : List JV} (h : ∀ v ∈ l, NoRepeats v) : NoRepeats (.arr l)
  | obj {kvs : List (Str × JV)} (hk : (kvs.map (·.1)).Nodup) (h : ∀ kv ∈ kvs, NoRepeats kv.2) : NoRepeats (.obj kvs)

/-- no slice type inside `t` has maps, or pointers to maps, as elements -/
def NoMapsIn (Γ : Env) : TExpr → Prop
  | .slice elt => (¬ ∃ val, Is Γ (pointee elt) (.map val)) ∧ NoMapsIn Γ elt
  | .star t | .map t | .array _ t => NoMapsIn Γ t
  | _ => True

/-- no slice type written in the package has maps, or pointers to maps, as elements -/
structure NoSlicesOfMaps (Γ : Env) : Prop where
  fields : ∀ n strict fds fd, Γ.decl n = some (.struct strict fds) → fd ∈ fds → NoMapsIn Γ fd.typ
  decls : ∀ n t, Γ.decl n = some (.alias t) → NoMapsIn Γ t

/-- Methods of other packages and hand-written methods do not look at the order of members. -/
structure LayoutBlind (Γ : Env) : Prop where
  conv : ∀ n v v' w, Γ.decl n = none → SameValue v v' → (Γ.ext n).conv v = .ok w → ∃ w', (Γ.ext n).conv v' = .ok w' ∧ SameValue w w'
  fill : ∀ n doc doc' old new, Γ.decl n = none → NoRepeats doc → SameDoc doc doc' → (Γ.ext n).fill doc old = .ok (none, new) →
    ∃ new', (Γ.ext n).fill doc' old = .ok (none, new') ∧ SameValue new new'

end VJ
