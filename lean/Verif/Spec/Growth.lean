import Verif.Spec.TextApi

/-!
# How large values and documents are
-/

namespace VJ

mutual
/-- The number of variables, map entries, characters and bytes a value consists of, counting
everything its pointers, slices (with their unused capacity) and maps lead to. -/
def GoVal.extent : GoVal → Nat
  | .str s => 1 + s.length
  | .bytes b | .barr b => 1 + b.length
  | .ptr v => 1 + v.extent
  | .slice es sp => 1 + extents es + extents sp
  | .arr es => 1 + extents es
  | .map kvs => 1 + entryExtents kvs
  | .struct gs => 1 + extents gs
  | .int _ | .float _ | .bool _ | .time _ | .uuid _ | .nil => 1
def extents : List GoVal → Nat
  | [] => 0
  | v :: vs => v.extent + extents vs
def entryExtents : List (Str × GoVal) → Nat
  | [] => 0
  | (k, v) :: kvs => 1 + k.length + v.extent + entryExtents kvs
end

mutual
/-- The number of values, members and characters of a document. -/
def JV.extent : JV → Nat
  | .null | .bool _ => 1
  | .num s | .str s => 1 + s.length
  | .arr l => 1 + docExtents l
  | .obj kvs => 1 + memberExtents kvs
def docExtents : List JV → Nat
  | [] => 0
  | v :: vs => v.extent + docExtents vs
def memberExtents : List (Str × JV) → Nat
  | [] => 0
  | (k, v) :: kvs => 1 + k.length + v.extent + memberExtents kvs
end

/-- `key` is read into a field of the struct type `n`, or of a struct embedded in it. -/
inductive KeyRead (Γ : Env) : Nat → Str → Prop
  | own {n : Nat} {strict : Bool} {fields : List FieldDecl} {fd : FieldDecl} (hd : Γ.decl n = some (.struct strict fields))
      (hf : fd ∈ fields) (hn : fd.tags.jsonName ≠ []) (hs : fd.tags.jsonName ≠ str "-") : KeyRead Γ n fd.tags.jsonName
  | embedded {n m : Nat} {strict : Bool} {fields : List FieldDecl} {fd : FieldDecl} {key : Str}
      (hd : Γ.decl n = some (.struct strict fields)) (hf : fd ∈ fields) (hn : fd.tags.jsonName = [])
      (ht : pointee fd.typ = .named m) (h : KeyRead Γ m key) : KeyRead Γ n key

/-- `key` is read into the field, or into a field of the struct embedded by it. -/
def KeyOf (Γ : Env) (fd : FieldDecl) (key : Str) : Prop :=
  (fd.tags.jsonName ≠ [] ∧ fd.tags.jsonName ≠ str "-" ∧ key = fd.tags.jsonName) ∨
  (fd.tags.jsonName = [] ∧ ∃ m, pointee fd.typ = .named m ∧ KeyRead Γ m key)

/-- A package in which no member of a document is read into two fields. -/
structure ReadOnce (Γ : Env) : Prop where
  /-- there are finitely many declarations -/
  finite : ∃ L : List Nat, ∀ n d, Γ.decl n = some d → n ∈ L
  /-- what has no JSON name is a struct of the package, or a pointer to one … -/
  embeds : ∀ n strict fields fd, Γ.decl n = some (.struct strict fields) → fd ∈ fields → fd.tags.jsonName = [] →
    ∃ m strict' fields', pointee fd.typ = .named m ∧ Γ.decl m = some (.struct strict' fields')
  /-- … and no struct embeds itself -/
  acyclic : ∃ rank : Nat → Nat, ∀ n strict fields fd m, Γ.decl n = some (.struct strict fields) → fd ∈ fields →
    fd.tags.jsonName = [] → pointee fd.typ = .named m → rank m < rank n
  /-- no key is read twice -/
  distinct : ∀ n strict fields (i j : Nat) fd fd' key, Γ.decl n = some (.struct strict fields) → fields[i]? = some fd →
    fields[j]? = some fd' → KeyOf Γ fd key → KeyOf Γ fd' key → i = j
  /-- types declared elsewhere behave likewise -/
  foreign : ∃ F, ∀ n, Γ.decl n = none →
    (∀ z, (Γ.ext n).zero = .ok z → z.extent ≤ F) ∧
    (∀ v w, (Γ.ext n).conv v = .ok w → w.extent ≤ v.extent) ∧
    (∀ doc old e new, (Γ.ext n).fill doc old = .ok (e, new) → new.extent ≤ old.extent + F * doc.extent)

end VJ
