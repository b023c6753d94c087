import Verif.Spec.Decode
import Verif.Spec.Encode

/-!
# Where and why a document cannot be decoded

`LeadsTo` walks from a document into its parts along member names, keys and indexes, and says
which type each part is decoded as.  `Wrong` says that a part cannot be decoded, by itself
and not because of a part of it, and why.  Both follow the documentation of the generator;
neither mentions the emitted statements.
-/

namespace VJ

/-- components joined with dots -/
def dotted : List Str → Str
  | [] => []
  | [p] => p
  | p :: q :: ps => p ++ '.' :: dotted (q :: ps)

/-- the error that names a place and a cause; an error about the whole document has no path -/
def errorAt (place : List Str) (c : Cause) : Err :=
  match place with
  | [] => ⟨none, c⟩
  | p :: ps => ⟨some (dotted (p :: ps)), c⟩

/-- The error `e` of a part, as an error of the whole: the same cause, and the path starts with
the name of the part. -/
def Err.inside (part : Str) (e : Err) : Err :=
  match e.path with
  | none => ⟨some part, e.cause⟩
  | some p => ⟨some (part ++ '.' :: p), e.cause⟩

section
variable [Ext]

/-- the type of JSON value a Go type is decoded from -/
inductive Wants (Γ : Env) : TExpr → JT → Prop
  | number {t : TExpr} {p : Prim} (h : PrimName Γ t p) (hb : p ≠ .bool) (hs : p ≠ .string) : Wants Γ t .number
  | boolean {t : TExpr} (h : PrimName Γ t .bool) : Wants Γ t .boolean
  | string {t : TExpr} (h : PrimName Γ t .string) : Wants Γ t .string
  | time {t : TExpr} (h : Is Γ t .time) : Wants Γ t .string
  | uuid {t : TExpr} (h : Is Γ t .uuid) : Wants Γ t .string
  | bytes {t : TExpr} (h : Is Γ t (.slice (.prim .byte)) ∨ ∃ n, Is Γ t (.array n (.prim .byte))) : Wants Γ t .string
  | list {t elt : TExpr} (h : Is Γ t (.slice elt) ∨ ∃ n, Is Γ t (.array n elt)) (hb : elt ≠ .prim .byte) : Wants Γ t .array
  | map {t val : TExpr} (h : Is Γ t (.map val)) : Wants Γ t .object
  | struct {t : TExpr} {n : Nat} {strict : Bool} {fields : List FieldDecl} (ht : NameOf t n)
      (hd : Γ.decl n = some (.struct strict fields)) : Wants Γ t .object

/-- `Wrong Γ L t v tail c`: `v` itself cannot be decoded as `t`, because of `c`.  `tail` is
empty unless the trouble is with one member of `v`, missing or repeated, which it then
names. -/
inductive Wrong (Γ : Env) : Str → TExpr → JV → List Str → Cause → Prop
  /-- not the right type of JSON value -/
  | type {L : Str} {t : TExpr} {v : JV} {want : JT} (hw : Wants Γ t want) (hv : v.type ≠ want) :
      Wrong Γ L t v [] (.wrongType want v.type)
  /-- not a number of this type -/
  | number {L : Str} {t : TExpr} {p : Prim} {raw : Str} (ht : PrimName Γ t p) (h : ∀ w, ¬ PrimDec p (.num raw) w) :
      Wrong Γ L t (.num raw) [] (.badNumber raw)
  | tooLarge {L : Str} {t : TExpr} {p : Prim} {raw : Str} {z : Int} (ht : PrimName Γ t p) (hp : p.isInt = true)
      (h : IntToken raw z) (hz : p.maxValue < z) : Wrong Γ L t (.num raw) [] (.exceedsMax z)
  | tooLargeFloat {L : Str} {t : TExpr} {raw : Str} {f : F64} (ht : PrimName Γ t .float32)
      (h : Ext.parseFloat raw = some f) (hf : Ext.gtMaxFloat32 f = true) : Wrong Γ L t (.num raw) [] (.exceedsMaxF f)
  | time {L : Str} {t : TExpr} {s : Str} (ht : Is Γ t .time) (h : ∀ tm, ¬ ReadsTime L s tm) :
      Wrong Γ L t (.str s) [] (.badTime s)
  | uuid {L : Str} {t : TExpr} {s : Str} (ht : Is Γ t .uuid) (h : ∀ b, ¬ ReadsUUID s b) : Wrong Γ L t (.str s) [] (.badUUID s)
  | base64 {L : Str} {t : TExpr} {s : Str} (ht : Is Γ t (.slice (.prim .byte)) ∨ ∃ n, Is Γ t (.array n (.prim .byte)))
      (h : ∀ b, ¬ Base64Text s b) : Wrong Γ L t (.str s) [] (.badBase64 s)
  | shortBytes {L : Str} {t : TExpr} {s : Str} {n : Nat} {b : List UInt8} (ht : Is Γ t (.array n (.prim .byte)))
      (h : Base64Text s b) (hn : b.length ≠ n) : Wrong Γ L t (.str s) [] .incomplete
  /-- not as many elements as the array has -/
  | length {L : Str} {t elt : TExpr} {n : Nat} {l : List JV} {c : Cause} (ht : Is Γ t (.array n elt)) (hl : l.length ≠ n)
      (hc : c = .lenMismatch ∨ c = .wrongCount n l.length) : Wrong Γ L t (.arr l) [] c
  | required {L : Str} {t : TExpr} {n : Nat} {strict : Bool} {fields : List FieldDecl} {fd : FieldDecl} {v : JV}
      (ht : NameOf t n) (hd : Γ.decl n = some (.struct strict fields)) (hf : fd ∈ fields)
      (hr : fd.tags.required = true) (hm : Missing fd v) :
      Wrong Γ L t v [fd.tags.jsonName] (.required fd.tags.jsonName)
  | twice {L : Str} {t : TExpr} {n : Nat} {strict : Bool} {fields : List FieldDecl} {key : Str} {kvs : List (Str × JV)}
      (ht : NameOf t n) (hd : Γ.decl n = some (.struct strict fields)) (hk : key ∈ jsonNames fields)
      (h : 2 ≤ occurrences key kvs) : Wrong Γ L t (.obj kvs) [key] (.twice key)
  /-- a member a strict struct does not know: the object is blamed, not the member -/
  | unexpected {L : Str} {t : TExpr} {n : Nat} {fields : List FieldDecl} {kvs : List (Str × JV)} {kv : Str × JV}
      (ht : NameOf t n) (hd : Γ.decl n = some (.struct true fields)) (hm : kv ∈ kvs) (hk : kv.1 ∉ jsonNames fields) :
      Wrong Γ L t (.obj kvs) [] (.unexpected kv.1)
  /-- the decoder of a type declared elsewhere says so -/
  | foreign {L : Str} {t : TExpr} {n : Nat} {v : JV} {old new : GoVal} {e : Err} (ht : NameOf t n)
      (hd : Γ.decl n = none) (h : Fills Γ n v old (some e) new) : Wrong Γ L t v e.path.toList e.cause

/-- `LeadsTo Γ L t v place L' t' v'`: the part of `v` at `place` is `v'`; when `v` is decoded
as `t` with layout tag `L`, that part is decoded as `t'` with layout tag `L'`. -/
inductive LeadsTo (Γ : Env) : Str → TExpr → JV → List Str → Str → TExpr → JV → Prop
  | here {L : Str} {t : TExpr} {v : JV} : LeadsTo Γ L t v [] L t v
  | ptr {L L' : Str} {t t' : TExpr} {v v' : JV} {place : List Str} (h : LeadsTo Γ L t v place L' t' v') :
      LeadsTo Γ L (.star t) v place L' t' v'
  /-- a name stands for the type it is declared as -/
  | name {L L0 L' : Str} {t u t' : TExpr} {n : Nat} {v v' : JV} {place : List Str} (hn : NameOf t n)
      (hd : Γ.decl n = some (.alias u)) (hl : L0 = L ∨ L0 = []) (h : LeadsTo Γ L0 u v place L' t' v') :
      LeadsTo Γ L t v place L' t' v'
  | elem {L L' : Str} {t elt t' : TExpr} {l : List JV} {i : Nat} {a v' : JV} {place : List Str}
      (ht : Is Γ t (.slice elt) ∨ ∃ n, Is Γ t (.array n elt)) (hi : l[i]? = some a)
      (h : LeadsTo Γ [] elt a place L' t' v') : LeadsTo Γ L t (.arr l) (natStr i :: place) L' t' v'
  | entry {L L' : Str} {t val t' : TExpr} {kvs : List (Str × JV)} {key : Str} {a v' : JV} {place : List Str}
      (ht : Is Γ t (.map val)) (hm : (key, a) ∈ kvs) (h : LeadsTo Γ L val a place L' t' v') :
      LeadsTo Γ L t (.obj kvs) (key :: place) L' t' v'
  | field {L L' : Str} {t t' : TExpr} {n : Nat} {strict : Bool} {fields : List FieldDecl} {fd : FieldDecl} {v a v' : JV}
      {place : List Str} (ht : NameOf t n) (hd : Γ.decl n = some (.struct strict fields)) (hf : fd ∈ fields)
      (hh : fd.tags.jsonName ≠ str "-") (hne : fd.tags.jsonName ≠ []) (hg : v.get fd.tags.jsonName = some a)
      (h : LeadsTo Γ fd.tags.layout fd.typ a place L' t' v') : LeadsTo Γ L t v (fd.tags.jsonName :: place) L' t' v'
  /-- the members of an embedded struct are members of the parent -/
  | embedded {L L' : Str} {t t' : TExpr} {n : Nat} {strict : Bool} {fields : List FieldDecl} {fd : FieldDecl} {v v' : JV}
      {place : List Str} (ht : NameOf t n) (hd : Γ.decl n = some (.struct strict fields)) (hf : fd ∈ fields)
      (hne : fd.tags.jsonName = []) (h : LeadsTo Γ fd.tags.layout fd.typ v place L' t' v') :
      LeadsTo Γ L t v place L' t' v'

/-- The error names a place in the document, and what is at that place cannot be decoded for
the cause the error gives. -/
def Blames (Γ : Env) (L : Str) (t : TExpr) (v : JV) (e : Err) : Prop :=
  ∃ place tail L' t' v' c, LeadsTo Γ L t v place L' t' v' ∧ Wrong Γ L' t' v' tail c ∧ e = errorAt (place ++ tail) c

/-! ## The types for which the generated code keeps to this -/

/-- elements of a slice or array field whose errors keep their path: scalars other than
strings, and types with their own decoder (or pointers to these) -/
def ElemTraced (Γ : Env) (elt : TExpr) : Prop :=
  (∃ p, p ≠ .string ∧ p ≠ .byte ∧ PrimName Γ (pointee elt) p) ∨ ∃ m, Calls Γ (pointee elt) m

def FieldTraced (Γ : Env) (t : TExpr) : Prop :=
  ∀ elt, (Is Γ t (.slice elt) ∨ ∃ n, Is Γ t (.array n elt)) → ElemTraced Γ elt

/-- Declarations whose decode errors have the right path.  Structs: no embedding, no byte
fields, no slices or arrays of anything but numbers, booleans and types with their own
decoder.  Other types: bytes, maps, lists of scalars or of types with their own decoder,
numbers and booleans, and names of types with their own decoder. -/
def DeclTraced (Γ : Env) : Decl → Prop
  | .struct _ fields => ∀ fd ∈ fields, fd.tags.jsonName ≠ str "-" → fd.tags.jsonName ≠ [] ∧ FieldTraced Γ (pointee fd.typ)
  | .alias (.slice elt) | .alias (.array _ elt) => elt = .prim .byte ∨ (∃ p, PrimName Γ elt p) ∨ ∃ m, Calls Γ elt m
  | .alias (.map _) => True
  | .alias t => (∃ p, p ≠ .string ∧ PrimName Γ t p) ∨ ∃ m, Calls Γ t m

/-- a set of such types, together with the types they use -/
structure TracedSet (Γ : Env) (S : Nat → Prop) : Prop where
  closed : ∀ n d t m, S n → Γ.decl n = some d → t ∈ d.types → m ∈ t.names → S m
  noAnon : ∀ n d t, S n → Γ.decl n = some d → t ∈ d.types → t.anon = false
  traced : ∀ n d, S n → Γ.decl n = some d → DeclTraced Γ d

end

end VJ
