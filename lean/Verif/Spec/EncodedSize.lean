import Verif.Spec.Growth
import Verif.Spec.RoundTrip

/-!
# How large encoded values are
-/

namespace VJ

section
variable [Ext]

mutual
/-- The integers of a value have at most 64 bits, and its floats and times have texts bounded by `B`:
a time may have a text longer than its layout (names of time zones are up to the program), but not more
than `B` characters for each character of the layout.  What lies beyond the length of a slice does not
count. -/
def Short (B : Nat) : GoVal → Prop
  | .int i => -2 ^ 63 ≤ i ∧ i < 2 ^ 64
  | .float f => (Ext.fmtFloat f).length ≤ B
  | .time t => (∀ layout, (Ext.fmtTime layout t).length ≤ B * (layout.length + 1)) ∧ ∀ s, Ext.timeText t = some s → s.length ≤ B
  | .ptr v => Short B v
  | .slice es _ => ShortAll B es
  | .arr es => ShortAll B es
  | .map kvs => ShortMembers B kvs
  | .struct gs => ShortAll B gs
  | _ => True
def ShortAll (B : Nat) : List GoVal → Prop
  | [] => True
  | v :: vs => Short B v ∧ ShortAll B vs
def ShortMembers (B : Nat) : List (Str × GoVal) → Prop
  | [] => True
  | (_, v) :: kvs => Short B v ∧ ShortMembers B kvs
end

/-- A package of finitely many declarations, in which types declared elsewhere write texts bounded by
the size of the value. -/
structure Finite (Γ : Env) (B : Nat) : Prop where
  finite : ∃ L : List Nat, ∀ n d, Γ.decl n = some d → n ∈ L
  foreign : ∃ F, ∀ n, Γ.decl n = none →
    (∀ v w e w', Short B v → (Γ.ext n).marshalTo (some v) w = .ok (e, w') → w'.buf.length ≤ w.buf.length + F * v.trim.extent) ∧
    (∀ w e w', (Γ.ext n).marshalTo none w = .ok (e, w') → w'.buf.length ≤ w.buf.length + F)

end

end VJ
