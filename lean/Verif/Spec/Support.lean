import Verif.Spec.Encode

/-!
# Which types the generator supports

Lists, for decoding, encoding, `IsZero` and `Reset`, the declarations for which methods are
generated that are valid Go, provided the methods they call on other types exist.
-/

namespace VJ

/-- predeclared types with a JSON counterpart; `byte` and `rune` have none -/
def Prim.hasJSON (p : Prim) : Prop := p ≠ .byte ∧ p ≠ .rune

/-- No declaration mentions an anonymous struct type (these are not modelled). -/
def NoAnonymous (Γ : Env) : Prop := ∀ n d t, Γ.decl n = some d → t ∈ d.types → t.anon = false

/-- layout tags that can be used for decoding -/
inductive LayoutOK : Str → Prop
  | none : LayoutOK []
  /-- `time.X` must be a constant of package time -/
  | const {name l : Str} (h : LayoutConst name l) : LayoutOK (str "time." ++ name)
  | literal {l : Str} (hl : l ≠ []) (hn : ¬ (str "time." <+: l ∧ '.' ∉ l.drop 5)) {l' : Str} (hq : ReadAsSource l l') : LayoutOK l

/-- `*T` -/
def TExpr.isPtr : TExpr → Bool
  | .star _ => true
  | _ => false

/-! ## Decoding -/

/-- values of maps: scalars and types with their own method, or pointers to them -/
inductive MapValue (Γ : Env) (v : TExpr) : Prop
  | prim {p : Prim} (h : PrimName Γ (pointee v) p) (hp : p.hasJSON)
  | method {n : Nat} (h : Calls Γ (pointee v) n)

/-- elements of arrays: scalars, times, UUIDs, named bytes -/
inductive ArrayElem (Γ : Env) (e : TExpr) : Prop
  | prim {p : Prim} (h : PrimName Γ e p) (hp : p.hasJSON)
  | time (h : Is Γ e .time)
  | uuid (h : Is Γ e .uuid)
  | bytes {n : Nat} (he : e = .named n) (h : Is Γ e (.slice (.prim .byte)))
  | fixedBytes {n len : Nat} (he : e = .named n) (h : Is Γ e (.array len (.prim .byte)))

/-- `Readable Γ ptr layout t`: there is code to decode a value of type `t`; `ptr`: it stands
behind a pointer. -/
inductive Readable (Γ : Env) : Bool → Str → TExpr → Prop
  | prim {b : Bool} {l : Str} {t : TExpr} {p : Prim} (h : PrimName Γ t p) (hp : p.hasJSON) : Readable Γ b l t
  | method {b : Bool} {l : Str} {t : TExpr} {n : Nat} (h : Calls Γ t n) : Readable Γ b l t
  | time {b : Bool} {l : Str} {t : TExpr} (h : Is Γ t .time) (hl : LayoutOK l) : Readable Γ b l t
  | uuid {b : Bool} {l : Str} {t : TExpr} (h : Is Γ t .uuid) : Readable Γ b l t
  | bytes {b : Bool} {l : Str} {t : TExpr} (h : Is Γ t (.slice (.prim .byte))) : Readable Γ b l t
  | fixedBytes {b : Bool} {l : Str} {t : TExpr} {len : Nat} (h : Is Γ t (.array len (.prim .byte))) : Readable Γ b l t
  /-- elements of slices may be slices and maps again, but not arrays written out -/
  | slice {l : Str} {t e : TExpr} (h : Is Γ t (.slice e)) (hb : e ≠ .prim .byte) (ha : ∀ len u, e ≠ .array len u)
      (he : Readable Γ e.isPtr [] (pointee e)) : Readable Γ false l t
  | array {b : Bool} {l : Str} {t e : TExpr} {len : Nat} (h : Is Γ t (.array len e)) (hb : e ≠ .prim .byte)
      (he : ArrayElem Γ e) : Readable Γ b l t
  | map {l : Str} {t v : TExpr} (h : Is Γ t (.map v)) (hv : MapValue Γ v) : Readable Γ false l t

/-- what types declared as pointers may point to -/
inductive PointsOK (Γ : Env) (layout : Str) : TExpr → Prop
  | prim {p : Prim} (hp : p.hasJSON) : PointsOK Γ layout (.prim p)
  | named {n : Nat} {p : Prim} (h : Γ.decl n = some (.alias (.prim p))) (hp : p.hasJSON) : PointsOK Γ layout (.named n)
  | time (hl : LayoutOK layout) : PointsOK Γ layout .time
  | uuid : PointsOK Γ layout .uuid

section
variable [Ext]

/-- default tags: a constant of the predeclared type, also for pointers and types declared as pointers -/
inductive DefaultOK (Γ : Env) (t : TExpr) (text : Str) : Prop
  | none (h : text = [])
  | prim {p : Prim} {v : GoVal} (ht : IsPrim Γ t p ∨ Is Γ t (.star (.prim p))) (h : PrimLiteral p text v)

/-- fields of structs -/
inductive ReadableField (Γ : Env) (fd : FieldDecl) : Prop
  /-- left out by `json:"-"` -/
  | skipped (h : fd.tags.jsonName = str "-")
  | plain (h : Readable Γ fd.typ.isPtr fd.tags.layout (pointee fd.typ)) (hd : DefaultOK Γ (pointee fd.typ) fd.tags.dflt)
  | namedPtr {x : TExpr} (h : Is Γ (pointee fd.typ) (.star x)) (hx : PointsOK Γ fd.tags.layout x)
      (hd : DefaultOK Γ (pointee fd.typ) fd.tags.dflt)

/-- pointers that named maps may hold -/
def MapPointee (Γ : Env) (y : TExpr) : Prop :=
  y ∈ [TExpr.prim .int, .prim .int64, .prim .uint, .prim .uint64, .prim .float64, .prim .bool] ∨ ∃ n, Calls Γ y n

/-- declarations a decoder is generated for -/
inductive ReadableDecl (Γ : Env) : Decl → Prop
  | struct {strict : Bool} {fields : List FieldDecl} (h : ∀ fd ∈ fields, ReadableField Γ fd) : ReadableDecl Γ (.struct strict fields)
  | map {v : TExpr} (hp : v.isPtr = false) (h : MapValue Γ v) : ReadableDecl Γ (.alias (.map v))
  | mapPtr {y : TExpr} (h : MapPointee Γ y) : ReadableDecl Γ (.alias (.map (.star y)))
  | bytes : ReadableDecl Γ (.alias (.slice (.prim .byte)))
  | fixedBytes (len : Nat) : ReadableDecl Γ (.alias (.array len (.prim .byte)))
  /-- elements that are slices or maps are possible only as types with their own method -/
  | slice {e : TExpr} (hb : e ≠ .prim .byte) (he : Readable Γ true [] e) : ReadableDecl Γ (.alias (.slice e))
  | array {e : TExpr} {len : Nat} (hb : e ≠ .prim .byte) (he : Readable Γ true [] e) : ReadableDecl Γ (.alias (.array len e))
  /-- a predeclared type, a time, a UUID, or another name — but not the name of a map -/
  | transit {t : TExpr} (ht : (∃ p, t = .prim p) ∨ (∃ n, NameOf t n) ∨ t = .time ∨ t = .uuid) (h : Readable Γ false [] t)
      (hm : ∀ v, ¬ Is Γ t (.map v)) : ReadableDecl Γ (.alias t)
end

/-! ## Encoding -/

/-- `t` is written as `u`, or is a name (possibly of another package) declared as `u` -/
inductive Sees (Γ : Env) : TExpr → TExpr → Prop
  | is {t u : TExpr} (h : Is Γ t u) : Sees Γ t u
  | sel {n : Nat} {u : TExpr} (h : Γ.decl n = some (.alias u)) : Sees Γ (.sel n) u

/-- elements of a list inside a list -/
inductive InnerElem (Γ : Env) : TExpr → Prop
  | prim {t : TExpr} {p : Prim} (h : IsPrim Γ t p) (hp : p.hasJSON) : InnerElem Γ t
  | primPtr {t : TExpr} {p : Prim} (h : IsPrim Γ t p) (hp : p.hasJSON) : InnerElem Γ (.star t)
  | time : InnerElem Γ .time
  | name {t : TExpr} {n : Nat} (h : NameOf t n) (hp : ∀ p, ¬ IsPrim Γ t p) : InnerElem Γ t
  | namePtr {t : TExpr} {n : Nat} (h : NameOf t n) (hp : ∀ p, ¬ IsPrim Γ t p) : InnerElem Γ (.star t)

/-- a slice or an array, but not of bytes, slices or arrays -/
inductive InnerList (Γ : Env) : TExpr → Prop
  | slice {e : TExpr} (hb : e ≠ .prim .byte) (he : InnerElem Γ e) : InnerList Γ (.slice e)
  | array {e : TExpr} {len : Nat} (hb : e ≠ .prim .byte) (he : InnerElem Γ e) : InnerList Γ (.array len e)

/-- a name whose `MarshalTo` is called: of a struct, of a type declared elsewhere, of a type
declared by another name or as a pointer to one -/
inductive Named (Γ : Env) (n : Nat) : Prop
  | foreign (h : Γ.decl n = none)
  | struct {strict : Bool} {fields : List FieldDecl} (h : Γ.decl n = some (.struct strict fields))
  | name {u : TExpr} {m : Nat} (h : Γ.decl n = some (.alias u)) (hu : NameOf u m) (hp : ∀ p, ¬ IsPrim Γ u p)
  | ptr {u : TExpr} {m : Nat} (h : Γ.decl n = some (.alias (.star u))) (hu : NameOf u m) (hp : ∀ p, ¬ IsPrim Γ u p)

/-- where an element stands: in a slice, array or map that is a struct field, in a named map,
or in a named slice or array -/
inductive Within where
  | field | namedMap | namedList
deriving DecidableEq

/-- `Writable Γ w e`: there is code to encode an element of type `e` of a collection -/
inductive Writable (Γ : Env) (w : Within) : TExpr → Prop
  | prim {e : TExpr} {p : Prim} (h : IsPrim Γ e p) (hp : p.hasJSON)
      (hs : w = .field → p = .string → ∀ n, e ≠ .sel n) : Writable Γ w e
  /-- a name declared as a name declared as a predeclared type -/
  | chain {e u : TExpr} {n m : Nat} {p : Prim} (hw : w = .namedMap → ∀ n, e ≠ .sel n) (he : NameOf e n)
      (hd : Γ.decl n = some (.alias u)) (hu : NameOf u m) (h : IsPrim Γ u p) (hp : p.hasJSON) : Writable Γ w e
  | primPtr {e u : TExpr} {p : Prim} (hw : w = .namedMap → ∀ n, e ≠ .sel n) (hs : Sees Γ e (.star u)) (h : IsPrim Γ u p)
      (hp : p.hasJSON) : Writable Γ w e
  | time : Writable Γ w .time
  | list {e : TExpr} (h : InnerList Γ e) : Writable Γ w e
  | namedList {e u : TExpr} {n : Nat} (hw : w ≠ .namedList) (hm : w = .namedMap → ∀ n, e ≠ .sel n) (he : NameOf e n)
      (hd : Γ.decl n = some (.alias u)) (h : InnerList Γ u) : Writable Γ w e
  | method {e : TExpr} {n : Nat} (he : NameOf e n) (h : Named Γ n) : Writable Γ w e
  | selMethod {n : Nat} (hw : w = .namedMap) (hp : ∀ p, ¬ IsPrim Γ (.sel n) p) : Writable Γ w (.sel n)
  | methodPtr {u : TExpr} {n : Nat} (he : NameOf u n) (hp : ∀ p, ¬ IsPrim Γ u p) : Writable Γ w (.star u)

/-- fields encoded by a method -/
inductive FieldMethod (Γ : Env) : TExpr → Prop
  | struct {n : Nat} {strict : Bool} {fields : List FieldDecl} (h : Γ.decl n = some (.struct strict fields)) : FieldMethod Γ (.named n)
  | sel {n : Nat} (hp : ∀ p, ¬ IsPrim Γ (.sel n) p) : FieldMethod Γ (.sel n)
  | named {n m : Nat} (h : Γ.decl n = some (.alias (.sel m))) : FieldMethod Γ (.named n)

/-- fields of structs -/
inductive WritableField (Γ : Env) (fd : FieldDecl) : Prop
  | prim {p : Prim} (h : IsPrim Γ (pointee fd.typ) p) (hp : p.hasJSON)
  | namedPtr {p : Prim} (h : Is Γ (pointee fd.typ) (.star (.prim p))) (hp : p.hasJSON)
  | time (h : fd.typ = .time)
  | timePtr (h : Is Γ fd.typ (.star .time))
  | uuid (h : fd.typ = .uuid)
  | uuidPtr (h : fd.typ = .star .uuid)
  | method (h : FieldMethod Γ fd.typ)
  /-- embedded structs must not be pointers -/
  | methodPtr {t : TExpr} (ht : fd.typ = .star t) (hn : fd.tags.jsonName ≠ []) (h : FieldMethod Γ t)
  | bytes (h : Is Γ fd.typ (.slice (.prim .byte)))
  | fixedBytes {len : Nat} (h : Is Γ fd.typ (.array len (.prim .byte)))
  | map {e : TExpr} (h : Is Γ fd.typ (.map e)) (he : Writable Γ .field e)
  | slice {e : TExpr} (h : Is Γ fd.typ (.slice e)) (hb : e ≠ .prim .byte) (he : Writable Γ .field e)
  | array {e : TExpr} {len : Nat} (h : Is Γ fd.typ (.array len e)) (hb : e ≠ .prim .byte) (he : Writable Γ .field e)

/-- declarations an encoder is generated for -/
inductive WritableDecl (Γ : Env) : Decl → Prop
  | struct {strict : Bool} {fields : List FieldDecl} (h : ∀ fd ∈ fields, WritableField Γ fd) : WritableDecl Γ (.struct strict fields)
  | map {v : TExpr} (h : Writable Γ .namedMap v) : WritableDecl Γ (.alias (.map v))
  | bytes : WritableDecl Γ (.alias (.slice (.prim .byte)))
  | fixedBytes (len : Nat) : WritableDecl Γ (.alias (.array len (.prim .byte)))
  | slice {e : TExpr} (hb : e ≠ .prim .byte) (h : Writable Γ .namedList e) : WritableDecl Γ (.alias (.slice e))
  | array {e : TExpr} {len : Nat} (hb : e ≠ .prim .byte) (h : Writable Γ .namedList e) : WritableDecl Γ (.alias (.array len e))
  | prim {p : Prim} (hp : p.hasJSON) : WritableDecl Γ (.alias (.prim p))
  | time : WritableDecl Γ (.alias .time)
  | uuid : WritableDecl Γ (.alias .uuid)
  | name {t : TExpr} {n : Nat} (h : NameOf t n) : WritableDecl Γ (.alias t)

/-! ## `IsZero` and `Reset` -/

/-- The chain of names starting at `t` comes to an end. -/
inductive Ends (Γ : Env) : TExpr → Prop
  | here {t : TExpr} (h : ∀ n, t ≠ .named n) : Ends Γ t
  | last {n : Nat} (h : ∀ u, Γ.decl n ≠ some (.alias u)) : Ends Γ (.named n)
  | next {n : Nat} {u : TExpr} (h : Γ.decl n = some (.alias u)) (hu : Ends Γ u) : Ends Γ (.named n)

/-- declarations `IsZero` is generated for: all but arrays of arrays -/
inductive TestableDecl (Γ : Env) : Decl → Prop
  | struct {strict : Bool} {fields : List FieldDecl} (h : ∀ fd ∈ fields, ∀ u, Sees Γ fd.typ u → Ends Γ u) : TestableDecl Γ (.struct strict fields)
  | withArray {strict : Bool} {fields : List FieldDecl} {fd : FieldDecl} {len : Nat} {e : TExpr} (hf : fd ∈ fields)
      (h : fd.typ = .array len e) : TestableDecl Γ (.struct strict fields)
  | map (v : TExpr) : TestableDecl Γ (.alias (.map v))
  | slice (e : TExpr) : TestableDecl Γ (.alias (.slice e))
  | array {e : TExpr} {len : Nat} (h : Ends Γ e) (ha : ∀ len u, e ≠ .array len u) : TestableDecl Γ (.alias (.array len e))
  | other {t : TExpr} (ht : (∃ p, t = .prim p) ∨ (∃ n, NameOf t n) ∨ t = .time ∨ t = .uuid) (h : Ends Γ t) : TestableDecl Γ (.alias t)

/-- `Depth Γ k t`: at most `k` slices are nested in each other in `t`, looking through names. -/
inductive Depth (Γ : Env) : Nat → TExpr → Prop
  | bytes {k : Nat} {t : TExpr} (h : Sees Γ t (.slice (.prim .byte))) : Depth Γ (k + 1) t
  | slice {k : Nat} {t e : TExpr} (h : Sees Γ t (.slice e)) (hn : e ≠ .prim .byte) (he : Depth Γ k e) : Depth Γ (k + 1) t
  | other {k : Nat} {t : TExpr} (h : ∀ e, ¬ Sees Γ t (.slice e)) (hs : ∀ u, Sees Γ t u → Ends Γ u) : Depth Γ k t

/-- declarations `Reset` is generated for: those with at most six slices nested -/
inductive ResettableDecl (Γ : Env) : Decl → Prop
  | struct {strict : Bool} {fields : List FieldDecl} (h : ∀ fd ∈ fields, Depth Γ 6 fd.typ) : ResettableDecl Γ (.struct strict fields)
  | map {v : TExpr} (h : Depth Γ 6 v) : ResettableDecl Γ (.alias (.map v))
  | slice (e : TExpr) : ResettableDecl Γ (.alias (.slice e))
  | array (len : Nat) (e : TExpr) : ResettableDecl Γ (.alias (.array len e))
  | other {t : TExpr} (ht : (∃ p, t = .prim p) ∨ (∃ n, NameOf t n) ∨ t = .time ∨ t = .uuid) (h : Depth Γ 6 t) : ResettableDecl Γ (.alias t)

section
variable [Ext]

/-- `IsZero` is generated for type `n`. -/
def HasIsZero (Γ : Env) (n : Nat) : Prop := ∃ d k ir, Γ.decl n = some d ∧ genZero Γ k d = .ok ir

/-- `Reset` is generated for type `n`. -/
def HasReset (Γ : Env) (n : Nat) : Prop := ∃ d k ir, Γ.decl n = some d ∧ genResetDecl Γ k d = .ok ir

end

end VJ
