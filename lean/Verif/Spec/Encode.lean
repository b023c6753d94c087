import Verif.Spec.JsonText
import Verif.Spec.Typing
import Verif.Spec.Append

/-!
# What encoding means, type by type

`Enc Γ F place v jv`: in that place the value `v` is encoded as the document `jv`.  `F` says how
types that are not part of the package are encoded (`none`: a nil pointer to such a type).
-/

namespace VJ

/-- Where a value stands:
* `elem true t`: it is an element of a slice, an array or a map, of type `t`;
* `elem false t`: it is an element of a slice or array that is itself such an element;
* `decl n`: it is encoded by the method of type `n`;
* `field fd`: it is the value of a struct field; its document is the object of the members it
  contributes. -/
inductive Place where
  | elem (outer : Bool) (t : TExpr)
  | decl (n : Nat)
  | field (fd : FieldDecl)

/-- the layout of times outside fields -/
def layoutNano : Str := str "2006-01-02T15:04:05.999999999Z07:00"

/-- the layout a time field is written in -/
def writeLayout (tag : Str) : Str := if tag = [] then layoutNano else tag
/-- the layout the zero time is written in -/
def zeroLayout (tag : Str) : Str := if tag = [] then str "2006-01-02T15:04:05Z07:00" else tag

/-- documents of scalars -/
inductive ScalarDoc [Ext] : GoVal → JV → Prop
  | int (i : Int) : ScalarDoc (.int i) (.num (intStr i))
  | float (f : F64) : ScalarDoc (.float f) (.num (Ext.fmtFloat f))
  | bool (b : Bool) : ScalarDoc (.bool b) (.bool b)
  | str (s : Str) : ScalarDoc (.str s) (.str s)

/-- zero, false and the empty string -/
inductive ZeroScalar : GoVal → Prop
  | int : ZeroScalar (.int 0)
  | float {f : F64} (h : f.isZero = true) : ZeroScalar (.float f)
  | bool : ZeroScalar (.bool false)
  | str : ZeroScalar (.str [])

/-- `t` is a pointer to `y`, written out or declared by a name -/
def PtrTo (Γ : Env) (t y : TExpr) : Prop := Is Γ t (.star y)

/-- `t` is a slice or an array with elements of type `e`, but not bytes -/
def ListOf (Γ : Env) (t e : TExpr) : Prop := e ≠ .prim .byte ∧ (Is Γ t (.slice e) ∨ ∃ n, Is Γ t (.array n e))

/-- the elements of a slice that is not nil, or of an array -/
inductive Listing : GoVal → List GoVal → Prop
  | slice (es sp : List GoVal) : Listing (.slice es sp) es
  | arr (es : List GoVal) : Listing (.arr es) es

/-- a field of type `t` is encoded by the method of type `n` -/
inductive ByMethod (Γ : Env) : TExpr → Nat → Prop
  | struct {n : Nat} {strict : Bool} {fields : List FieldDecl} (hd : Γ.decl n = some (.struct strict fields)) : ByMethod Γ (.named n) n
  | sel {n : Nat} (hd : Γ.decl n = none) : ByMethod Γ (.sel n) n
  | named {n m : Nat} (hd : Γ.decl n = some (.alias (.sel m))) : ByMethod Γ (.named n) m

/-- the document of a nil pointer to type `n` -/
inductive NilDoc (Γ : Env) (F : Nat → Option GoVal → JV → Prop) (n : Nat) : JV → Prop
  | noFields {strict : Bool} (hd : Γ.decl n = some (.struct strict [])) : NilDoc Γ F n (.obj [])
  | null {d : Decl} (hd : Γ.decl n = some d) (hs : ∀ strict, d ≠ .struct strict []) : NilDoc Γ F n .null
  | foreign {jv : JV} (hd : Γ.decl n = none) (h : F n none jv) : NilDoc Γ F n jv

/-- what a field can be, as far as encoding goes -/
inductive EKind where
  /-- a scalar, a pointer to one, a pointer to such a pointer -/
  | scalar | ptr | ptr2
  | time | timePtr | uuid | uuidPtr
  /-- a type with its own method, or a pointer to one -/
  | method (n : Nat)
  | methodPtr (n : Nat)
  | map (e : TExpr)
  | list (e : TExpr)
  | bytes | fixedBytes

inductive FieldKind (Γ : Env) : TExpr → EKind → Prop
  | scalar {t : TExpr} {p : Prim} (h : IsPrim Γ t p) : FieldKind Γ t .scalar
  | ptr {t : TExpr} {p : Prim} (h : IsPrim Γ t p) : FieldKind Γ (.star t) .ptr
  | namedPtr {n : Nat} {p : Prim} (h : Γ.decl n = some (.alias (.star (.prim p)))) : FieldKind Γ (.named n) .ptr
  | ptr2 {t : TExpr} {p : Prim} (h : Is Γ t (.star (.prim p))) : FieldKind Γ (.star t) .ptr2
  | time : FieldKind Γ .time .time
  | timePtr {t : TExpr} (h : Is Γ t (.star .time)) : FieldKind Γ t .timePtr
  | uuid : FieldKind Γ .uuid .uuid
  | uuidPtr : FieldKind Γ (.star .uuid) .uuidPtr
  | method {t : TExpr} {n : Nat} (h : ByMethod Γ t n) : FieldKind Γ t (.method n)
  | methodPtr {t : TExpr} {n : Nat} (h : ByMethod Γ t n) : FieldKind Γ (.star t) (.methodPtr n)
  | map {t e : TExpr} (h : Is Γ t (.map e)) : FieldKind Γ t (.map e)
  | slice {t e : TExpr} (h : Is Γ t (.slice e)) (hb : e ≠ .prim .byte) : FieldKind Γ t (.list e)
  | array {t e : TExpr} {len : Nat} (h : Is Γ t (.array len e)) (hb : e ≠ .prim .byte) : FieldKind Γ t (.list e)
  | bytes {t : TExpr} (h : Is Γ t (.slice (.prim .byte))) : FieldKind Γ t .bytes
  | fixedBytes {t : TExpr} {len : Nat} (h : Is Γ t (.array len (.prim .byte))) : FieldKind Γ t .fixedBytes

/-- Values `omitempty` omits.  UUIDs and arrays (but for bytes) are not among them. -/
inductive IsEmpty [Ext] (Γ : Env) : EKind → GoVal → Prop
  | scalar {v : GoVal} (h : ZeroScalar v) : IsEmpty Γ .scalar v
  | ptr : IsEmpty Γ .ptr .nil
  | ptr2 : IsEmpty Γ .ptr2 .nil
  | ptr2' : IsEmpty Γ .ptr2 (.ptr .nil)
  | time {t : Time} (h : t.isZero = true) : IsEmpty Γ .time (.time t)
  | timePtr : IsEmpty Γ .timePtr .nil
  | method {n : Nat} {v : GoVal} (h : IsZeroIs Γ n v true) : IsEmpty Γ (.method n) v
  | methodPtr {n : Nat} : IsEmpty Γ (.methodPtr n) .nil
  | map {e : TExpr} : IsEmpty Γ (.map e) .nil
  | list {e : TExpr} : IsEmpty Γ (.list e) .nil
  | bytes : IsEmpty Γ .bytes .nil
  | fixedBytes {b : List UInt8} (h : ∀ x ∈ b, x = 0) : IsEmpty Γ .fixedBytes (.barr b)

/-- The field is left out: it is empty and has the option `omitempty`, or it is an embedded
struct that is zero. -/
def Omitted [Ext] (Γ : Env) (fd : FieldDecl) (v : GoVal) : Prop :=
  ∃ k, FieldKind Γ fd.typ k ∧ IsEmpty Γ k v ∧ (fd.tags.omitempty = true ∨ ((∃ n, k = .method n) ∧ fd.tags.jsonName = []))

/-- What is written for an empty value of a field without `omitempty`. -/
inductive EmptyDoc [Ext] (tags : Tags) : EKind → GoVal → JV → Prop
  /-- zero floats, also `-0`, are written `0` -/
  | float (f : F64) : EmptyDoc tags .scalar (.float f) (.num (str "0"))
  | scalar {v : GoVal} {jv : JV} (hf : ∀ f, v ≠ .float f) (h : ScalarDoc v jv) : EmptyDoc tags .scalar v jv
  /-- the zero time, but also a nil pointer to a time, is written as the zero date -/
  | time (v : GoVal) : EmptyDoc tags .time v (.str (Ext.fmtTime (zeroLayout tags.layout) .zero))
  | timePtr (v : GoVal) : EmptyDoc tags .timePtr v (.str (Ext.fmtTime (zeroLayout tags.layout) .zero))
  /-- nil pointers, slices and maps, but also a fixed-length byte array of zeros -/
  | null {k : EKind} (v : GoVal) (h : k ≠ .scalar ∧ k ≠ .time ∧ k ≠ .timePtr ∧ ∀ n, k ≠ .method n) : EmptyDoc tags k v .null

/-- a slice or a map type -/
def IsCollection (t : TExpr) : Prop := (∃ e, t = .slice e) ∨ ∃ e, t = .map e

inductive Enc [Ext] (Γ : Env) (F : Nat → Option GoVal → JV → Prop) : Place → GoVal → JV → Prop
  -- elements
  | scalar {o : Bool} {t : TExpr} {p : Prim} {v : GoVal} {jv : JV} (ht : PrimName Γ t p) (h : ScalarDoc v jv) :
      Enc Γ F (.elem o t) v jv
  | time {o : Bool} (tm : Time) : Enc Γ F (.elem o .time) (.time tm) (.str (Ext.fmtTime layoutNano tm))
  | nilScalar {o : Bool} {t y : TExpr} {p : Prim} (ht : PtrTo Γ t y) (hy : IsPrim Γ y p) : Enc Γ F (.elem o t) .nil .null
  | ptrScalar {o : Bool} {t y : TExpr} {p : Prim} {v : GoVal} {jv : JV} (ht : PtrTo Γ t y) (hy : IsPrim Γ y p) (h : ScalarDoc v jv) :
      Enc Γ F (.elem o t) (.ptr v) jv
  | nilPtr {o : Bool} {y : TExpr} {n : Nat} {jv : JV} (hy : NameOf y n) (hp : ∀ p, ¬ IsPrim Γ y p) (h : NilDoc Γ F n jv) :
      Enc Γ F (.elem o (.star y)) .nil jv
  | ptr {o : Bool} {y : TExpr} {n : Nat} {v : GoVal} {jv : JV} (hy : NameOf y n) (hp : ∀ p, ¬ IsPrim Γ y p)
      (h : Enc Γ F (.decl n) v jv) : Enc Γ F (.elem o (.star y)) (.ptr v) jv
  /-- a nil slice inside another collection is written as an empty array -/
  | nilList {t e : TExpr} (ht : ListOf Γ t e) : Enc Γ F (.elem true t) .nil (.arr [])
  | list {t e : TExpr} {v : GoVal} {es : List GoVal} {docs : List JV} (ht : ListOf Γ t e) (hv : Listing v es)
      (hl : docs.length = es.length)
      (h : ∀ (i : Nat) (x : GoVal) (d : JV), es[i]? = some x → docs[i]? = some d → Enc Γ F (.elem false e) x d) :
      Enc Γ F (.elem true t) v (.arr docs)
  | name {o : Bool} {t : TExpr} {n : Nat} {v : GoVal} {jv : JV} (ht : NameOf t n) (hp : ∀ p, ¬ IsPrim Γ t p)
      (hl : o = true → ∀ e, ¬ ListOf Γ t e) (h : Enc Γ F (.decl n) v jv) : Enc Γ F (.elem o t) v jv
  -- declared types
  | foreign {n : Nat} {v : GoVal} {jv : JV} (hd : Γ.decl n = none) (h : F n (some v) jv) : Enc Γ F (.decl n) v jv
  /-- the members of the fields, in declaration order -/
  | struct {n : Nat} {strict : Bool} {fields : List FieldDecl} {gs : List GoVal} {ms : List (List (Str × JV))}
      (hd : Γ.decl n = some (.struct strict fields)) (hl : gs.length = fields.length) (hm : ms.length = fields.length)
      (h : ∀ (i : Nat) (fd : FieldDecl) (g : GoVal) (m : List (Str × JV)), fields[i]? = some fd → gs[i]? = some g → ms[i]? = some m →
        Enc Γ F (.field fd) g (.obj m)) : Enc Γ F (.decl n) (.struct gs) (.obj ms.flatten)
  | namedScalar {n : Nat} {p : Prim} {v : GoVal} {jv : JV} (hd : Γ.decl n = some (.alias (.prim p))) (h : ScalarDoc v jv) :
      Enc Γ F (.decl n) v jv
  | namedTime {n : Nat} {tm : Time} {s : Str} (hd : Γ.decl n = some (.alias .time)) (h : Ext.timeText tm = some s) :
      Enc Γ F (.decl n) (.time tm) (.str s)
  | namedUUID {n : Nat} (b : List UInt8) (hd : Γ.decl n = some (.alias .uuid)) : Enc Γ F (.decl n) (.uuid b) (.str (uuidText b))
  | namedNil {n : Nat} {u : TExpr} (hd : Γ.decl n = some (.alias u)) (hu : IsCollection u) : Enc Γ F (.decl n) .nil .null
  | namedBytes {n : Nat} (b : List UInt8) (hd : Γ.decl n = some (.alias (.slice (.prim .byte)))) :
      Enc Γ F (.decl n) (.bytes b) (.str (b64Encode b))
  | namedFixed {n len : Nat} (b : List UInt8) (hd : Γ.decl n = some (.alias (.array len (.prim .byte)))) :
      Enc Γ F (.decl n) (.barr b) (.str (b64Encode b))
  | namedList {n : Nat} {u e : TExpr} {v : GoVal} {es : List GoVal} {docs : List JV} (hd : Γ.decl n = some (.alias u))
      (hb : e ≠ .prim .byte) (hu : u = .slice e ∨ ∃ len, u = .array len e) (hv : Listing v es) (hl : docs.length = es.length)
      (h : ∀ (i : Nat) (x : GoVal) (d : JV), es[i]? = some x → docs[i]? = some d → Enc Γ F (.elem true e) x d) :
      Enc Γ F (.decl n) v (.arr docs)
  | namedMap {n : Nat} {e : TExpr} {kvs : List (Str × GoVal)} {docs : List JV} (hd : Γ.decl n = some (.alias (.map e)))
      (hl : docs.length = kvs.length)
      (h : ∀ (i : Nat) (kv : Str × GoVal) (d : JV), kvs[i]? = some kv → docs[i]? = some d → Enc Γ F (.elem true e) kv.2 d) :
      Enc Γ F (.decl n) (.map kvs) (.obj ((kvs.map (·.1)).zip docs))
  /-- a type declared as another named type -/
  | namedName {n m : Nat} {u : TExpr} {v : GoVal} {jv : JV} (hd : Γ.decl n = some (.alias u)) (hu : NameOf u m)
      (h : Enc Γ F (.decl m) v jv) : Enc Γ F (.decl n) v jv
  -- struct fields
  | omitted {fd : FieldDecl} {v : GoVal} (h : Omitted Γ fd v) : Enc Γ F (.field fd) v (.obj [])
  | empty {fd : FieldDecl} {k : EKind} {v : GoVal} {jv : JV} (hk : FieldKind Γ fd.typ k) (hv : IsEmpty Γ k v)
      (ho : fd.tags.omitempty = false) (h : EmptyDoc fd.tags k v jv) : Enc Γ F (.field fd) v (.obj [(fd.tags.jsonName, jv)])
  | scalarField {fd : FieldDecl} {v : GoVal} {jv : JV} (hk : FieldKind Γ fd.typ .scalar) (hv : ¬ ZeroScalar v) (h : ScalarDoc v jv) :
      Enc Γ F (.field fd) v (.obj [(fd.tags.jsonName, jv)])
  | ptrField {fd : FieldDecl} {v : GoVal} {jv : JV} (hk : FieldKind Γ fd.typ .ptr) (h : ScalarDoc v jv) :
      Enc Γ F (.field fd) (.ptr v) (.obj [(fd.tags.jsonName, jv)])
  | ptr2Field {fd : FieldDecl} {v : GoVal} {jv : JV} (hk : FieldKind Γ fd.typ .ptr2) (h : ScalarDoc v jv) :
      Enc Γ F (.field fd) (.ptr (.ptr v)) (.obj [(fd.tags.jsonName, jv)])
  | timeField {fd : FieldDecl} {t : Time} (hk : FieldKind Γ fd.typ .time) (hz : t.isZero = false) :
      Enc Γ F (.field fd) (.time t) (.obj [(fd.tags.jsonName, .str (Ext.fmtTime (writeLayout fd.tags.layout) t))])
  | timePtrField {fd : FieldDecl} {t : Time} (hk : FieldKind Γ fd.typ .timePtr) :
      Enc Γ F (.field fd) (.ptr (.time t)) (.obj [(fd.tags.jsonName, .str (Ext.fmtTime (writeLayout fd.tags.layout) t))])
  | uuidField {fd : FieldDecl} {b : List UInt8} (hk : FieldKind Γ fd.typ .uuid) :
      Enc Γ F (.field fd) (.uuid b) (.obj [(fd.tags.jsonName, .str (uuidText b))])
  | uuidPtrField {fd : FieldDecl} {b : List UInt8} (hk : FieldKind Γ fd.typ .uuidPtr) :
      Enc Γ F (.field fd) (.ptr (.uuid b)) (.obj [(fd.tags.jsonName, .str (uuidText b))])
  | methodField {fd : FieldDecl} {n : Nat} {v : GoVal} {jv : JV} (hk : FieldKind Γ fd.typ (.method n)) (hn : fd.tags.jsonName ≠ [])
      (ho : fd.tags.omitempty = true → IsZeroIs Γ n v false) (h : Enc Γ F (.decl n) v jv) :
      Enc Γ F (.field fd) v (.obj [(fd.tags.jsonName, jv)])
  | methodPtrField {fd : FieldDecl} {n : Nat} {v : GoVal} {jv : JV} (hk : FieldKind Γ fd.typ (.methodPtr n))
      (h : Enc Γ F (.decl n) v jv) : Enc Γ F (.field fd) (.ptr v) (.obj [(fd.tags.jsonName, jv)])
  /-- an embedded struct contributes its members -/
  | spliced {fd : FieldDecl} {n : Nat} {v : GoVal} {kvs : List (Str × JV)} (hk : FieldKind Γ fd.typ (.method n)) (hn : fd.tags.jsonName = [])
      (hz : IsZeroIs Γ n v false) (h : Enc Γ F (.decl n) v (.obj kvs)) : Enc Γ F (.field fd) v (.obj kvs)
  | mapField {fd : FieldDecl} {e : TExpr} {kvs : List (Str × GoVal)} {docs : List JV} (hk : FieldKind Γ fd.typ (.map e))
      (hl : docs.length = kvs.length)
      (h : ∀ (i : Nat) (kv : Str × GoVal) (d : JV), kvs[i]? = some kv → docs[i]? = some d → Enc Γ F (.elem true e) kv.2 d) :
      Enc Γ F (.field fd) (.map kvs) (.obj [(fd.tags.jsonName, .obj ((kvs.map (·.1)).zip docs))])
  | listField {fd : FieldDecl} {e : TExpr} {v : GoVal} {es : List GoVal} {docs : List JV} (hk : FieldKind Γ fd.typ (.list e))
      (hv : Listing v es) (hl : docs.length = es.length)
      (h : ∀ (i : Nat) (x : GoVal) (d : JV), es[i]? = some x → docs[i]? = some d → Enc Γ F (.elem true e) x d) :
      Enc Γ F (.field fd) v (.obj [(fd.tags.jsonName, .arr docs)])
  | bytesField {fd : FieldDecl} {b : List UInt8} (hk : FieldKind Γ fd.typ .bytes) :
      Enc Γ F (.field fd) (.bytes b) (.obj [(fd.tags.jsonName, .str (b64Encode b))])
  | fixedField {fd : FieldDecl} {b : List UInt8} (hk : FieldKind Γ fd.typ .fixedBytes) (hb : ∃ x ∈ b, x ≠ 0) :
      Enc Γ F (.field fd) (.barr b) (.obj [(fd.tags.jsonName, .str (b64Encode b))])

/-! ## Values and packages the encoder can cope with -/

/-- `Part Γ T V t v`: the value `V` of type `T` has in it the value `v` of type `t`. -/
inductive Part (Γ : Env) (T : TExpr) (V : GoVal) : TExpr → GoVal → Prop
  | self : Part Γ T V T V
  | ptr {t : TExpr} {v : GoVal} (h : Part Γ T V (.star t) (.ptr v)) : Part Γ T V t v
  | slice {t : TExpr} {v : GoVal} {es sp : List GoVal} (h : Part Γ T V (.slice t) (.slice es sp)) (hv : v ∈ es) : Part Γ T V t v
  | array {t : TExpr} {n : Nat} {v : GoVal} {es : List GoVal} (h : Part Γ T V (.array n t) (.arr es)) (hv : v ∈ es) : Part Γ T V t v
  | map {t : TExpr} {kv : Str × GoVal} {kvs : List (Str × GoVal)} (h : Part Γ T V (.map t) (.map kvs)) (hv : kv ∈ kvs) : Part Γ T V t kv.2
  | alias {e u : TExpr} {n : Nat} {v : GoVal} (h : Part Γ T V e v) (he : NameOf e n) (hd : Γ.decl n = some (.alias u)) : Part Γ T V u v
  | field {e : TExpr} {n i : Nat} {strict : Bool} {fields : List FieldDecl} {fd : FieldDecl} {gs : List GoVal} {g : GoVal}
      (h : Part Γ T V e (.struct gs)) (he : NameOf e n) (hd : Γ.decl n = some (.struct strict fields))
      (hf : fields[i]? = some fd) (hg : gs[i]? = some g) : Part Γ T V fd.typ g

section
variable [Ext]

/-- `Written Γ T V t v`: the same for the parts that are written when `V` is encoded: nothing in
a field that is omitted is. -/
inductive Written (Γ : Env) (T : TExpr) (V : GoVal) : TExpr → GoVal → Prop
  | self : Written Γ T V T V
  | ptr {t : TExpr} {v : GoVal} (h : Written Γ T V (.star t) (.ptr v)) : Written Γ T V t v
  | slice {t : TExpr} {v : GoVal} {es sp : List GoVal} (h : Written Γ T V (.slice t) (.slice es sp)) (hv : v ∈ es) : Written Γ T V t v
  | array {t : TExpr} {n : Nat} {v : GoVal} {es : List GoVal} (h : Written Γ T V (.array n t) (.arr es)) (hv : v ∈ es) : Written Γ T V t v
  | map {t : TExpr} {kv : Str × GoVal} {kvs : List (Str × GoVal)} (h : Written Γ T V (.map t) (.map kvs)) (hv : kv ∈ kvs) :
      Written Γ T V t kv.2
  | alias {e u : TExpr} {n : Nat} {v : GoVal} (h : Written Γ T V e v) (he : NameOf e n) (hd : Γ.decl n = some (.alias u)) : Written Γ T V u v
  | field {e : TExpr} {n i : Nat} {strict : Bool} {fields : List FieldDecl} {fd : FieldDecl} {gs : List GoVal} {g : GoVal}
      (h : Written Γ T V e (.struct gs)) (he : NameOf e n) (hd : Γ.decl n = some (.struct strict fields))
      (hf : fields[i]? = some fd) (hg : gs[i]? = some g) (ho : ¬ Omitted Γ fd g) : Written Γ T V fd.typ g

/-- The field is a nil pointer (not to a time) written as `null`; the generated code forgets
that it has written something. -/
def Forgotten (Γ : Env) (fd : FieldDecl) (v : GoVal) : Prop :=
  fd.tags.omitempty = false ∧ ∃ k, FieldKind Γ fd.typ k ∧ IsEmpty Γ k v ∧ (k = .ptr ∨ k = .ptr2 ∨ ∃ n, k = .methodPtr n)

/-- Before a field that is written and is not the first one written, there is a field that is
written and not forgotten. -/
def CommasOK (Γ : Env) (fields : List FieldDecl) (gs : List GoVal) : Prop :=
  ∀ (i j : Nat) (fd fd' : FieldDecl) (g g' : GoVal), i < j → fields[i]? = some fd → gs[i]? = some g → fields[j]? = some fd' →
    gs[j]? = some g' → ¬ Omitted Γ fd g → ¬ Omitted Γ fd' g' →
    ∃ (l : Nat) (fl : FieldDecl) (gl : GoVal), l < j ∧ fields[l]? = some fl ∧ gs[l]? = some gl ∧ ¬ Omitted Γ fl gl ∧ ¬ Forgotten Γ fl gl

/-- Every embedded struct that is not zero has a member to contribute. -/
def SplicesOK (Γ : Env) (F : Nat → Option GoVal → JV → Prop) (fields : List FieldDecl) (gs : List GoVal) : Prop :=
  ∀ (i n : Nat) (fd : FieldDecl) (g : GoVal) (jv : JV), fields[i]? = some fd → gs[i]? = some g → fd.tags.jsonName = [] →
    ByMethod Γ fd.typ n → IsZeroIs Γ n g false → Enc Γ F (.decl n) g jv → ∃ kv kvs, jv = .obj (kv :: kvs)

/-- What is asked of a value: the floats in it that are written are printed as JSON numbers (no
NaN, no infinities), and the structs in it that are written have no comma trouble and no empty
embedded structs. -/
structure Fine (Γ : Env) (F : Nat → Option GoVal → JV → Prop) (T : TExpr) (V : GoVal) : Prop where
  floats : ∀ p f, Written Γ T V (.prim p) (.float f) → NumText (Ext.fmtFloat f)
  commas : ∀ e n strict fields gs, Written Γ T V e (.struct gs) → NameOf e n → Γ.decl n = some (.struct strict fields) → CommasOK Γ fields gs
  splices : ∀ e n strict fields gs, Written Γ T V e (.struct gs) → NameOf e n → Γ.decl n = some (.struct strict fields) → SplicesOK Γ F fields gs

/-- selectors in a type expression -/
def TExpr.sels : TExpr → List Nat
  | .sel n => [n]
  | .star t | .slice t | .array _ t | .map t => t.sels
  | _ => []

/-- A set of types, together with the types they use. -/
structure TypeSet (Γ : Env) (S : Nat → Prop) : Prop where
  closed : ∀ n d t m, S n → Γ.decl n = some d → t ∈ d.types → m ∈ t.names → S m
  noAnon : ∀ n d t, S n → Γ.decl n = some d → t ∈ d.types → t.anon = false
  /-- types of other packages are not declared here -/
  sels : ∀ n d t m, S n → Γ.decl n = some d → t ∈ d.types → m ∈ t.sels → Γ.decl m = none

/-- What is asked of a package. -/
structure EncPackage (Γ : Env) (F : Nat → Option GoVal → JV → Prop) (S : Nat → Prop) : Prop extends TypeSet Γ S where
  /-- JSON names need no escaping -/
  keys : ∀ n strict fields fd, S n → Γ.decl n = some (.struct strict fields) → fd ∈ fields → PlainText fd.tags.jsonName
  /-- times are printed without quotes or backslashes -/
  times : ∀ tm, PlainText (Ext.fmtTime layoutNano tm)
  timeTexts : ∀ tm s, Ext.timeText tm = some s → PlainText s
  layouts : ∀ n strict fields fd, S n → Γ.decl n = some (.struct strict fields) → fd ∈ fields →
    (∀ tm, PlainText (Ext.fmtTime (writeLayout fd.tags.layout) tm)) ∧ PlainText (Ext.fmtTime (zeroLayout fd.tags.layout) .zero)
  /-- hand-written `MarshalTo` methods write the JSON text of their document -/
  foreign : ∀ n r w w', S n → Γ.decl n = none → w.err = none → (Γ.ext n).marshalTo r w = .ok (none, w') →
    ∃ jv s, F n r jv ∧ Json jv s ∧ w' = w.raw s
  /-- … and only append -/
  tame : ForeignTame Γ
end

end VJ
