import Verif.Model.Json
import Verif.Model.Types

/-!
# Vocabulary about documents and struct declarations
-/

namespace VJ

/-- the JSON names of the fields -/
def jsonNames (fields : List FieldDecl) : List Str := fields.map fun fd => fd.tags.jsonName

/-- how many members of an object have this key -/
def occurrences (key : Str) (kvs : List (Str × JV)) : Nat :=
  (kvs.filter fun kv => kv.1 = key).length

/-- C01: the shape of document a struct type takes. -/
def Acceptable (names : List Str) (strict : Bool) (v : JV) : Prop :=
  ∃ kvs, v = .obj kvs ∧ (∀ key ∈ names, occurrences key kvs ≤ 1)
    ∧ (strict = true → ∀ kv ∈ kvs, kv.1 ∈ names)

/-- Two outcomes that differ at most in *which* error is reported. -/
def SameUpToError : Out (Option Err × GoVal) → Out (Option Err × GoVal) → Prop
  | .ok (e, s), .ok (e', s') => s = s' ∧ (e = none ↔ e' = none)
  | r, r' => r = r'

/-- Objects whose members agree on the keys in `K`: same number of occurrences and same
first value. -/
def AgreeOn (K : Str → Prop) (v v' : JV) : Prop :=
  ∃ kvs kvs', v = .obj kvs ∧ v' = .obj kvs' ∧
    ∀ key, K key → occurrences key kvs = occurrences key kvs' ∧ JV.lookup key kvs = JV.lookup key kvs'

/-- `S` is a set of struct types closed under embedding: every field without a JSON name of
one of them is itself of one of them. -/
def ClosedUnderEmbedding (Γ : Env) (S : Nat → Prop) : Prop :=
  ∀ n, S n → ∃ strict fields, Γ.decl n = some (.struct strict fields) ∧
    ∀ fd ∈ fields, fd.tags.jsonName = [] → ∃ m, fd.typ = .named m ∧ S m

end VJ
