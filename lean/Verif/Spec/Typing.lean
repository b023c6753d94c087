import Verif.Spec.Decode

/-!
# Values of a type, and packages
-/

namespace VJ

/-- the integer types, with `byte` and `rune` -/
def Prim.isWhole : Prim → Bool
  | .float32 | .float64 | .bool | .string => false
  | _ => true

/-- values of a predeclared type -/
inductive PrimTyped : Prim → GoVal → Prop
  | int {p : Prim} {i : Int} (hp : p.isWhole = true) (h : p.inRange i) : PrimTyped p (.int i)
  | float64 (f : F64) : PrimTyped .float64 (.float f)
  | float32 (f : F64) : PrimTyped .float32 (.float f)
  | bool (b : Bool) : PrimTyped .bool (.bool b)
  | string (s : Str) : PrimTyped .string (.str s)

/-- `HasType Γ X t v`: `v` is a value of type `t`.  `X n` says what the values of the type `n`
are when its declaration is not part of the package. -/
inductive HasType (Γ : Env) (X : Nat → GoVal → Prop) : TExpr → GoVal → Prop
  | prim {p : Prim} {v : GoVal} (h : PrimTyped p v) : HasType Γ X (.prim p) v
  | time (t : Time) : HasType Γ X .time (.time t)
  | uuid {b : List UInt8} (h : b.length = 16) : HasType Γ X .uuid (.uuid b)
  | nilPtr (t : TExpr) : HasType Γ X (.star t) .nil
  | ptr {t : TExpr} {v : GoVal} (h : HasType Γ X t v) : HasType Γ X (.star t) (.ptr v)
  | nilSlice (t : TExpr) : HasType Γ X (.slice t) .nil
  | slice {t : TExpr} {es sp : List GoVal} (hb : t ≠ .prim .byte) (h : ∀ v ∈ es, HasType Γ X t v)
      (hs : ∀ v ∈ sp, HasType Γ X t v) : HasType Γ X (.slice t) (.slice es sp)
  | bytes (b : List UInt8) : HasType Γ X (.slice (.prim .byte)) (.bytes b)
  | array {t : TExpr} {n : Nat} {es : List GoVal} (hb : t ≠ .prim .byte) (hl : es.length = n)
      (h : ∀ v ∈ es, HasType Γ X t v) : HasType Γ X (.array n t) (.arr es)
  | barr {n : Nat} {b : List UInt8} (hl : b.length = n) : HasType Γ X (.array n (.prim .byte)) (.barr b)
  | nilMap (t : TExpr) : HasType Γ X (.map t) .nil
  | map {t : TExpr} {kvs : List (Str × GoVal)} (hk : (kvs.map (·.1)).Nodup) (h : ∀ kv ∈ kvs, HasType Γ X t kv.2) :
      HasType Γ X (.map t) (.map kvs)
  | alias {e t : TExpr} {n : Nat} {v : GoVal} (he : NameOf e n) (hd : Γ.decl n = some (.alias t)) (h : HasType Γ X t v) :
      HasType Γ X e v
  | struct {e : TExpr} {n : Nat} {strict : Bool} {fields : List FieldDecl} {gs : List GoVal} (he : NameOf e n)
      (hd : Γ.decl n = some (.struct strict fields)) (hl : gs.length = fields.length)
      (h : ∀ (i : Nat) (fd : FieldDecl) (g : GoVal), fields[i]? = some fd → gs[i]? = some g → HasType Γ X fd.typ g) :
      HasType Γ X e (.struct gs)
  | foreign {e : TExpr} {n : Nat} {v : GoVal} (he : NameOf e n) (hd : Γ.decl n = none) (h : X n v) : HasType Γ X e v

/-- names mentioned in a type expression -/
def TExpr.names : TExpr → List Nat
  | .named n | .sel n => [n]
  | .star t | .slice t | .array _ t | .map t => t.names
  | _ => []

/-- names whose values are stored in a value of the type itself (not behind a pointer, slice or map) -/
def TExpr.inline : TExpr → List Nat
  | .named n | .sel n => [n]
  | .array _ t => t.inline
  | _ => []

/-- the type expression mentions an anonymous struct type -/
def TExpr.anon : TExpr → Bool
  | .structT => true
  | .star t | .slice t | .array _ t | .map t => t.anon
  | _ => false

/-- the type expression mentions a fixed-length byte array -/
def TExpr.fixedBytes : TExpr → Bool
  | .array _ t => t.isByte || t.fixedBytes
  | .star t | .slice t | .map t => t.fixedBytes
  | _ => false

/-- the type expressions in a declaration -/
def Decl.types : Decl → List TExpr
  | .struct _ fields => fields.map fun fd => fd.typ
  | .alias t => [t]

/-- names a declaration contains by value, or embeds (also by pointer) without a JSON name -/
def Decl.inner : Decl → List Nat
  | .struct _ fields => fields.flatMap fun fd => fd.typ.inline ++ if fd.tags.jsonName = [] then (pointee fd.typ).inline else []
  | .alias t => t.inline

/-- `S` is a set of types of a package for which decoders are generated, together with the
types it uses. -/
structure Package [Ext] (Γ : Env) (X : Nat → GoVal → Prop) (S : Nat → Prop) : Prop where
  closed : ∀ n d t m, S n → Γ.decl n = some d → t ∈ d.types → m ∈ t.names → S m
  /-- what is generated is valid Go -/
  decoders : ∀ n, S n → Γ.decl n ≠ none → HasDecoder Γ n
  noAnon : ∀ n d t, S n → Γ.decl n = some d → t ∈ d.types → t.anon = false
  /-- no type contains or embeds itself -/
  acyclic : ∃ rank : Nat → Nat, ∀ n d m, S n → Γ.decl n = some d → m ∈ d.inner → rank m < rank n
  /-- types declared elsewhere, or with hand-written methods, work -/
  foreignZero : ∀ n, S n → Γ.decl n = none → ∃ z, (Γ.ext n).zero = .ok z ∧ X n z
  foreignConv : ∀ n v, S n → Γ.decl n = none → X n v → ∃ w, (Γ.ext n).conv v = .ok w ∧ X n w
  foreignFill : ∀ n v s, S n → Γ.decl n = none → X n s → ∃ e w, (Γ.ext n).fill v s = .ok (e, w) ∧ X n w

/-- no type in `S` mentions a fixed-length byte array -/
def NoFixedBytes (Γ : Env) (S : Nat → Prop) : Prop :=
  ∀ n d t, S n → Γ.decl n = some d → t ∈ d.types → t.fixedBytes = false

/-- `Overflows Γ t v`: somewhere in the document `v`, read as a `t`, a string stands where the
type has `[len]byte`, and its base64 text, well-formed to its end or not, has more than `len`
bytes.  A field is looked up by its key; a field without a key reads the document of its struct. -/
inductive Overflows (Γ : Env) : TExpr → JV → Prop
  | bytes {len : Nat} {s : Str} (h : len < (b64Decode s).1.length) : Overflows Γ (.array len (.prim .byte)) (.str s)
  | star {t : TExpr} {v : JV} (h : Overflows Γ t v) : Overflows Γ (.star t) v
  | slice {t : TExpr} {v : JV} {l : List JV} (hv : v ∈ l) (h : Overflows Γ t v) : Overflows Γ (.slice t) (.arr l)
  | array {len : Nat} {t : TExpr} {v : JV} {l : List JV} (hv : v ∈ l) (h : Overflows Γ t v) : Overflows Γ (.array len t) (.arr l)
  | map {t : TExpr} {kv : Str × JV} {kvs : List (Str × JV)} (hv : kv ∈ kvs) (h : Overflows Γ t kv.2) : Overflows Γ (.map t) (.obj kvs)
  | alias {e t : TExpr} {n : Nat} {v : JV} (he : NameOf e n) (hd : Γ.decl n = some (.alias t)) (h : Overflows Γ t v) :
      Overflows Γ e v
  | field {e : TExpr} {n : Nat} {strict : Bool} {fields : List FieldDecl} {fd : FieldDecl} {v w : JV} (he : NameOf e n)
      (hd : Γ.decl n = some (.struct strict fields)) (hf : fd ∈ fields) (hk : fd.tags.jsonName ≠ []) (hk' : fd.tags.jsonName ≠ str "-")
      (hw : v.get fd.tags.jsonName = some w) (h : Overflows Γ fd.typ w) : Overflows Γ e v
  | inline {e : TExpr} {n : Nat} {strict : Bool} {fields : List FieldDecl} {fd : FieldDecl} {v : JV} (he : NameOf e n)
      (hd : Γ.decl n = some (.struct strict fields)) (hf : fd ∈ fields) (hk : fd.tags.jsonName = []) (h : Overflows Γ fd.typ v) :
      Overflows Γ e v

end VJ
