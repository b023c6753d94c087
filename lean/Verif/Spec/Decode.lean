import Verif.Spec.Fields
import Verif.Spec.Codecs

/-!
# What decoding means, type by type

`Decodes Γ layout t v old new`: decoding the JSON value `v` into a place of type `t` that
held `old` succeeds and leaves `new`.  The relation follows the documentation of the
generator, not the emitted statements; where the emitted code is known to do something a
user would not expect (integers that do not fit are wrapped, slice storage is reused), the
rule says so.
-/

namespace VJ

/-! ## Numbers -/

/-- the text is decimal digits that denote the number -/
inductive DecNat : Str → Nat → Prop
  | one {d : Nat} (h : d < 10) : DecNat [Char.ofNat (48 + d)] d
  | more {s : Str} {n d : Nat} (hs : DecNat s n) (h : d < 10) : DecNat (s ++ [Char.ofNat (48 + d)]) (10 * n + d)

/-- the text is an optional minus and decimal digits that denote the integer -/
inductive IntToken : Str → Int → Prop
  | nonneg {s : Str} {n : Nat} (h : DecNat s n) : IntToken s n
  | neg {s : Str} {n : Nat} (h : DecNat s n) : IntToken ('-' :: s) (-n)

def Prim.isSigned : Prim → Bool
  | .int | .int8 | .int16 | .int32 | .int64 => true
  | _ => false

def Prim.isUnsigned : Prim → Bool
  | .uint | .uint8 | .uint16 | .uint32 | .uint64 => true
  | _ => false

/-- smallest and largest value of an integer type -/
def Prim.minValue : Prim → Int
  | .int8 => -128
  | .int16 => -32768
  | .int32 => -2147483648
  | .int64 | .int => -9223372036854775808
  | _ => 0

def Prim.maxValue : Prim → Int
  | .int8 => 127
  | .int16 => 32767
  | .int32 => 2147483647
  | .int64 | .int => 9223372036854775807
  | .uint8 => 255
  | .uint16 => 65535
  | .uint32 => 4294967295
  | .uint64 | .uint => 18446744073709551615
  | _ => 0

/-- number of values of an integer type -/
def Prim.modulus : Prim → Int
  | .int8 | .uint8 => 256
  | .int16 | .uint16 => 65536
  | .int32 | .uint32 => 4294967296
  | _ => 18446744073709551616

/-- the value of type `p` that is congruent to `z` modulo the number of values of `p` -/
def WrapsTo (p : Prim) (z w : Int) : Prop :=
  p.minValue ≤ w ∧ w ≤ p.maxValue ∧ ∃ q, z = w + q * p.modulus

/-! ## Times -/

/-- the layouts accepted without a layout tag, in order of preference -/
def documentedLayouts : List Str :=
  [ str "2006-01-02T15:04:05.999999999Z07:00", str "2006-01-02T15:04:05Z07:00",
    str "2006-01-02 15:04:05Z07:00", str "02.01.2006 15:04:05Z07:00" ]

/-- `s` reads as the time `t` under a layout tag (empty: no tag). -/
inductive ReadsTime [Ext] : Str → Str → Time → Prop
  | default {s : Str} {t : Time} {pre post : List Str} {l : Str} (hl : documentedLayouts = pre ++ l :: post)
      (hpre : ∀ l' ∈ pre, Ext.parseTime l' s = none) (h : Ext.parseTime l s = some t) : ReadsTime [] s t
  /-- a tag `time.X` names a constant of package time -/
  | const {s : Str} {t : Time} {name l : Str} (hn : LayoutConst name l) (h : Ext.parseTime l s = some t) :
      ReadsTime (str "time." ++ name) s t
  /-- any other tag is the layout itself, as the Go compiler reads it between quotes -/
  | literal {s : Str} {t : Time} {l l' : Str} (hl : l ≠ []) (hn : ¬ (str "time." <+: l ∧ '.' ∉ l.drop 5))
      (hq : ReadAsSource l l') (h : Ext.parseTime l' s = some t) : ReadsTime l s t

/-! ## Types -/

/-- `t` is written as `u`, or is a name declared as `u`. -/
inductive Is (Γ : Env) : TExpr → TExpr → Prop
  | self (t : TExpr) : Is Γ t t
  | named {n : Nat} {u : TExpr} (h : Γ.decl n = some (.alias u)) : Is Γ (.named n) u

/-- `t` is a predeclared type, a name declared as one, or a name declared as such a name. -/
inductive PrimName (Γ : Env) : TExpr → Prim → Prop
  | base {t : TExpr} {p : Prim} (h : IsPrim Γ t p) : PrimName Γ t p
  | chain {n : Nat} {u : TExpr} {p : Prim} (hn : Γ.decl n = some (.alias u)) (h : IsPrim Γ u p) : PrimName Γ (.named n) p

/-- The name in a type expression that is just a name. -/
inductive NameOf : TExpr → Nat → Prop
  | named (n : Nat) : NameOf (.named n) n
  | sel (n : Nat) : NameOf (.sel n) n

/-- `t` is a name whose own method `FillFromJSON` is called: a struct, a type declared
elsewhere, or a name declared as such a name. -/
inductive Calls (Γ : Env) : TExpr → Nat → Prop
  | struct {n : Nat} {strict : Bool} {fields : List FieldDecl} (h : Γ.decl n = some (.struct strict fields)) :
      Calls Γ (.named n) n
  | structLit {n : Nat} (h : Γ.decl n = some (.alias .structT)) : Calls Γ (.named n) n
  | foreign {n : Nat} (h : Γ.decl n = none) : Calls Γ (.named n) n
  | name {n m : Nat} {u : TExpr} (h : Γ.decl n = some (.alias u)) (hu : NameOf u m) (hp : ∀ p, ¬ IsPrim Γ u p) :
      Calls Γ (.named n) n
  | sel {n : Nat} (hp : ∀ p, ¬ IsPrim Γ (.sel n) p) : Calls Γ (.sel n) n

/-- what a pointer type points to; other types themselves -/
def pointee : TExpr → TExpr
  | .star t => t
  | t => t

/-- Times, UUIDs and maps (or pointers to them).  As elements of a slice or array field they
are decoded by statements that declare their own error variable, and errors get lost. -/
def LosesErrors (Γ : Env) (elt : TExpr) : Prop :=
  Is Γ (pointee elt) .time ∨ Is Γ (pointee elt) .uuid ∨ ∃ val, Is Γ (pointee elt) (.map val)

/-- `t` is a slice, an array or a map with elements of type `elt` -/
def HasElem (Γ : Env) (t elt : TExpr) : Prop :=
  Is Γ t (.slice elt) ∨ (∃ n, Is Γ t (.array n elt)) ∨ Is Γ t (.map elt)

/-- No slice or array inside `t`, at any depth, has elements that lose errors. -/
inductive KeepsErrors (Γ : Env) : TExpr → Prop
  | mk {t : TExpr}
      (h : ∀ elt, (Is Γ t (.slice elt) ∨ ∃ n, Is Γ t (.array n elt)) → ¬ LosesErrors Γ elt)
      (hrec : ∀ elt, HasElem Γ t elt → KeepsErrors Γ (pointee elt)) : KeepsErrors Γ t

section
variable [Ext]

/-- A JSON value denotes a value of a predeclared type.  Integers must fit 64 bits and are
then reduced to the width of the type. -/
inductive PrimDec : Prim → JV → GoVal → Prop
  | signed {p : Prim} {raw : Str} {z w : Int} (hp : p.isSigned = true) (h : IntToken raw z)
      (h1 : -9223372036854775808 ≤ z) (h2 : z ≤ 9223372036854775807) (hw : WrapsTo p z w) : PrimDec p (.num raw) (.int w)
  | unsigned {p : Prim} {raw : Str} {n : Nat} {w : Int} (hp : p.isUnsigned = true) (h : DecNat raw n)
      (h2 : n ≤ 18446744073709551615) (hw : WrapsTo p n w) : PrimDec p (.num raw) (.int w)
  | float64 {raw : Str} {f : F64} (h : Ext.parseFloat raw = some f) : PrimDec .float64 (.num raw) (.float f)
  | float32 {raw : Str} {f : F64} (h : Ext.parseFloat raw = some f) : PrimDec .float32 (.num raw) (.float (Ext.toFloat32 f))
  | bool (b : Bool) : PrimDec .bool (.bool b) (.bool b)
  | string (s : Str) : PrimDec .string (.str s) (.str s)

/-- A number written for a struct field of a predeclared type (or a pointer to one) is not
above the largest value of the type; this is the only bound the generated code checks. -/
def NotTooLarge (Γ : Env) (t : TExpr) (v : JV) : Prop :=
  ∀ (p : Prim) (raw : Str), IsPrim Γ (pointee t) p → v = .num raw →
    (p.isInt = true → ∀ z, IntToken raw z → z ≤ p.maxValue) ∧
    (p = .float32 → ∀ f, Ext.parseFloat raw = some f → Ext.gtMaxFloat32 f = false)

/-- The part of a document that a field with JSON name `name` looks at: the member of that
name; without a name, the whole document. -/
def Looks (name : Str) (doc w : JV) : Prop :=
  (name = [] ∧ w = doc) ∨ (name ≠ [] ∧ doc.get name = some w)

/-- The storage a slice is decoded into: that of the old slice if it is large enough, or new
zeroed storage. -/
inductive Storage : GoVal → Nat → GoVal → List GoVal → Prop
  | fromNil {len : Nat} {z : GoVal} : Storage .nil len z (List.replicate len z)
  | grow {es sp : List GoVal} {len : Nat} {z : GoVal} (h : es.length + sp.length < len) :
      Storage (.slice es sp) len z (List.replicate len z)
  | reuse {es sp : List GoVal} {len : Nat} {z : GoVal} (h : len ≤ es.length + sp.length) :
      Storage (.slice es sp) len z (es ++ sp)

/-- assignments `m[k] = v` in order -/
def setAll (m : List (Str × GoVal)) (kvs : List (Str × GoVal)) : List (Str × GoVal) :=
  kvs.foldl (fun m kv => mapSet kv.1 kv.2 m) m

mutual
/-- Decoding `v` into a place of type `t` holding `old` leaves `new`; `L` is the layout tag. -/
inductive Decodes (Γ : Env) : Str → TExpr → JV → GoVal → GoVal → Prop
  | prim {L : Str} {t : TExpr} {p : Prim} {v : JV} {old w : GoVal} (ht : PrimName Γ t p) (h : PrimDec p v w) :
      Decodes Γ L t v old w
  | time {L : Str} {t : TExpr} {s : Str} {tm : Time} {old : GoVal} (ht : Is Γ t .time) (h : ReadsTime L s tm) :
      Decodes Γ L t (.str s) old (.time tm)
  | uuid {L : Str} {t : TExpr} {s : Str} {b : List UInt8} {old : GoVal} (ht : Is Γ t .uuid) (h : ReadsUUID s b) :
      Decodes Γ L t (.str s) old (.uuid b)
  /-- a struct is decoded in place, by its own method -/
  | call {L : Str} {t : TExpr} {n : Nat} {v : JV} {old new : GoVal} (ht : Calls Γ t n) (h : Fills Γ n v old none new) :
      Decodes Γ L t v old new
  | bytes {L : Str} {t : TExpr} {s : Str} {b : List UInt8} {old : GoVal} (ht : Is Γ t (.slice (.prim .byte)))
      (h : Base64Text s b) : Decodes Γ L t (.str s) old (.bytes b)
  /-- `null` for a byte slice is nil -/
  | bytesNull {L : Str} {t : TExpr} {old : GoVal} (ht : Is Γ t (.slice (.prim .byte))) : Decodes Γ L t .null old .nil
  | fixedBytes {L : Str} {t : TExpr} {n : Nat} {s : Str} {b : List UInt8} {old : GoVal}
      (ht : Is Γ t (.array n (.prim .byte))) (h : Base64Text s b) (hn : b.length = n) : Decodes Γ L t (.str s) old (.barr b)
  | fixedBytesNull {L : Str} {t : TExpr} {n : Nat} {old : GoVal} (ht : Is Γ t (.array n (.prim .byte))) :
      Decodes Γ L t .null old (.barr (List.replicate n 0))
  /-- one element per member of the array, each decoded into its cell of the storage -/
  | slice {L : Str} {t elt : TExpr} {l : List JV} {old z : GoVal} {cells news : List GoVal}
      (ht : Is Γ t (.slice elt)) (hb : elt ≠ .prim .byte) (hz : ZeroOf Γ elt z) (hc : Storage old l.length z cells)
      (hlen : news.length = l.length)
      (hnull : ∀ (i : Nat) (w : GoVal), elt.nullLike = true → l[i]? = some .null → news[i]? = some w → w = .nil)
      (helem : ∀ (i : Nat) (a : JV) (c w : GoVal), l[i]? = some a → cells[i]? = some c → news[i]? = some w →
        (elt.nullLike = true → a ≠ .null) → Decodes Γ [] elt a c w) :
      Decodes Γ L t (.arr l) old (.slice news (cells.drop l.length))
  | array {L : Str} {t elt : TExpr} {n : Nat} {l : List JV} {old z : GoVal} {news : List GoVal}
      (ht : Is Γ t (.array n elt)) (hb : elt ≠ .prim .byte) (hz : ZeroOf Γ elt z) (hl : l.length = n)
      (hlen : news.length = n)
      (helem : ∀ (i : Nat) (a : JV) (w : GoVal), l[i]? = some a → news[i]? = some w → Decodes Γ [] elt a z w) :
      Decodes Γ L t (.arr l) old (.arr news)
  /-- the members are added to the old map -/
  | map {L : Str} {t val : TExpr} {kvs : List (Str × JV)} {old : GoVal} {m0 : List (Str × GoVal)} {news : List GoVal}
      (ht : Is Γ t (.map val)) (hold : (old = .nil ∧ m0 = []) ∨ old = .map m0) (hlen : news.length = kvs.length)
      (hnull : ∀ (i : Nat) (key : Str) (w : GoVal), (∃ u, val = .star u) → kvs[i]? = some (key, .null) →
        news[i]? = some w → w = .nil)
      (helem : ∀ (i : Nat) (key : Str) (a : JV) (w : GoVal), kvs[i]? = some (key, a) → news[i]? = some w →
        ((∃ u, val = .star u) → a ≠ .null) → DecodesNew Γ L val a w) :
      Decodes Γ L t (.obj kvs) old (.map (setAll m0 ((kvs.map (·.1)).zip news)))
  /-- a pointer to a new value -/
  | ptr {L : Str} {t : TExpr} {v : JV} {old w : GoVal} (h : DecodesNew Γ L t v w) : Decodes Γ L (.star t) v old (.ptr w)
  /-- a name declared as a pointer to a predeclared type, time or UUID -/
  | namedPtr {L : Str} {n : Nat} {t : TExpr} {v : JV} {old w : GoVal} (hn : Γ.decl n = some (.alias (.star t)))
      (h : DecodesNew Γ L t v w) : Decodes Γ L (.named n) v old (.ptr w)
/-- Decoding `v` into a new place of type `t` gives `w`. -/
inductive DecodesNew (Γ : Env) : Str → TExpr → JV → GoVal → Prop
  | call {L : Str} {t : TExpr} {n : Nat} {v : JV} {z w w' : GoVal} (ht : Calls Γ t n) (hz : ZeroIs Γ n z)
      (h : Fills Γ n v z none w) (hc : ConvIs Γ n w w') : DecodesNew Γ L t v w'
  /-- for other types the result does not depend on the place -/
  | other {L : Str} {t : TExpr} {v : JV} {w : GoVal} (ht : ∀ n, ¬ Calls Γ t n) (h : ∀ old, Decodes Γ L t v old w) :
      DecodesNew Γ L t v w
end

/-- The element of a slice that the document's `a` stands for: `null` is nil where the
element type is a pointer or a collection, otherwise the decoded value. -/
def ElementOf (Γ : Env) (elt : TExpr) (a : JV) (w : GoVal) : Prop :=
  (elt.nullLike = true ∧ a = .null ∧ w = .nil) ∨ (¬ (elt.nullLike = true ∧ a = .null) ∧ DecodesNew Γ [] elt a w)

/-- The same for map values, where only pointers take `null`; `L` is the layout tag of the field. -/
def MapValueOf (Γ : Env) (L : Str) (val : TExpr) (a : JV) (w : GoVal) : Prop :=
  ((∃ u, val = .star u) ∧ a = .null ∧ w = .nil) ∨ (¬ ((∃ u, val = .star u) ∧ a = .null) ∧ DecodesNew Γ L val a w)

/-! ## Fields and structs -/

/-- The document has nothing for the field: no member of its name, or a `null` that counts
as absent. -/
def Missing (fd : FieldDecl) (doc : JV) : Prop :=
  (fd.tags.jsonName ≠ [] ∧ doc.get fd.tags.jsonName = none) ∨
  (fd.typ.nullLike = true ∧ Looks fd.tags.jsonName doc .null)

/-- a pointer to something that is not itself a pointer -/
def PlainPointer (Γ : Env) (t : TExpr) : Prop := ∃ u, t = .star u ∧ ¬ IsPointer Γ u

/-- What a successful decode of the document does to a field. -/
inductive FieldResult (Γ : Env) (fd : FieldDecl) (doc : JV) : GoVal → GoVal → Prop
  /-- fields named "-" are left alone -/
  | hidden {old : GoVal} (h : fd.tags.jsonName = str "-") : FieldResult Γ fd doc old old
  | decoded {old new : GoVal} {w : JV} (h : fd.tags.jsonName ≠ str "-") (hl : Looks fd.tags.jsonName doc w)
      (hnn : fd.typ.nullLike = true → w ≠ .null) (hd : Decodes Γ fd.tags.layout fd.typ w old new)
      (hm : NotTooLarge Γ fd.typ w) : FieldResult Γ fd doc old new
  /-- nothing in the document, no default, not required -/
  | kept {old : GoVal} (h : fd.tags.jsonName ≠ str "-") (hm : Missing fd doc) (hdef : fd.tags.dflt = [])
      (hreq : fd.tags.required = false) : FieldResult Γ fd doc old old
  | default {old d : GoVal} (h : fd.tags.jsonName ≠ str "-") (hm : Missing fd doc) (hdef : fd.tags.dflt ≠ [])
      (hp : Looks fd.tags.jsonName doc .null → ¬ PlainPointer Γ fd.typ)
      (hd : DefaultValue Γ fd.typ fd.tags.dflt d) : FieldResult Γ fd doc old d
  /-- the default of a pointer does not replace a `null` -/
  | nullKept {old : GoVal} (h : fd.tags.jsonName ≠ str "-") (hl : Looks fd.tags.jsonName doc .null)
      (hdef : fd.tags.dflt ≠ []) (hp : PlainPointer Γ fd.typ) : FieldResult Γ fd doc old old

/-! ## Declared types that are not structs -/

/-- a slice, array or map literal -/
def TExpr.isCollection : TExpr → Bool
  | .slice _ | .array _ _ | .map _ => true
  | _ => false

/-- What a successful decode does to a variable of a type declared as `t`. -/
inductive NamedResult (Γ : Env) : TExpr → JV → GoVal → GoVal → Prop
  /-- `null` leaves a collection alone -/
  | null {t : TExpr} {old : GoVal} (ht : t.isCollection = true) : NamedResult Γ t .null old old
  | bytes {s : Str} {b : List UInt8} {old : GoVal} (h : Base64Text s b) :
      NamedResult Γ (.slice (.prim .byte)) (.str s) old (.bytes b)
  | fixedBytes {n : Nat} {s : Str} {b : List UInt8} {old : GoVal} (h : Base64Text s b) (hn : b.length = n) :
      NamedResult Γ (.array n (.prim .byte)) (.str s) old (.barr b)
  /-- a new slice, one element per member -/
  | slice {elt : TExpr} {l : List JV} {old : GoVal} {news : List GoVal} (hb : elt ≠ .prim .byte)
      (hlen : news.length = l.length)
      (h : ∀ (i : Nat) (a : JV) (w : GoVal), l[i]? = some a → news[i]? = some w → DecodesNew Γ [] elt a w) :
      NamedResult Γ (.slice elt) (.arr l) old (.slice news [])
  | array {elt : TExpr} {n : Nat} {l : List JV} {old : GoVal} {news : List GoVal} (hb : elt ≠ .prim .byte)
      (hl : l.length = n) (hlen : news.length = n)
      (h : ∀ (i : Nat) (a : JV) (w : GoVal), l[i]? = some a → news[i]? = some w → DecodesNew Γ [] elt a w) :
      NamedResult Γ (.array n elt) (.arr l) old (.arr news)
  /-- a new map; the old members are gone -/
  | map {val : TExpr} {kvs : List (Str × JV)} {old : GoVal} {news : List GoVal} (hlen : news.length = kvs.length)
      (hnull : ∀ (i : Nat) (key : Str) (w : GoVal), (∃ u, val = .star u) → kvs[i]? = some (key, .null) →
        news[i]? = some w → w = .nil)
      (h : ∀ (i : Nat) (key : Str) (a : JV) (w : GoVal), kvs[i]? = some (key, a) → news[i]? = some w →
        ((∃ u, val = .star u) → a ≠ .null) → DecodesNew Γ [] val a w) :
      NamedResult Γ (.map val) (.obj kvs) old (.map (setAll [] ((kvs.map (·.1)).zip news)))
  /-- a type declared as a struct type: decoded into a new struct -/
  | fresh {t : TExpr} {n : Nat} {v : JV} {old new : GoVal} (hc : Calls Γ t n) (h : DecodesNew Γ [] t v new) :
      NamedResult Γ t v old new
  /-- a type declared as any other type: decoded as that type -/
  | other {t : TExpr} {v : JV} {old new : GoVal} (ht : t.isCollection = false) (hc : ∀ n, ¬ Calls Γ t n)
      (h : Decodes Γ [] t v old new) : NamedResult Γ t v old new

/-- The types decoded on behalf of a type declared as `t` lose no errors. -/
def NamedKeepsErrors (Γ : Env) : TExpr → Prop
  | .slice elt | .array _ elt | .map elt => KeepsErrors Γ (pointee elt)
  | t => KeepsErrors Γ t

/-- A variable of a type declared as a fixed-size array has that many elements. -/
def FixedSize : TExpr → GoVal → Prop
  | .array n elt, x => if elt = .prim .byte then ∃ b : List UInt8, x = .barr b ∧ b.length = n
      else ∃ es : List GoVal, x = .arr es ∧ es.length = n
  | _, _ => True

end

end VJ
