import Verif.Model.Heap

/-!
# Encoding and `IsZero` in memory

The same emitted code as in `Model/RunMarshal.lean`, reading a memory with addresses.  It
assigns to nothing but its own variables and the writer, so that a value can be passed instead
of the place it is in.
-/

namespace VJ

/-- `*p` for a pointer that is not nil -/
def Heap.deref (h : Heap) (l : Loc) : Out HVal :=
  match h.objs[l]? with
  | some (.cells [w]) => .ok w
  | _ => .unsupp

/-- the elements of a slice -/
def Heap.window (h : Heap) (l off len : Nat) : Out (List HVal) :=
  match h.objs[l]? with
  | some (.cells vs) => if off + len ≤ vs.length then .ok ((vs.drop off).take len) else .unsupp
  | _ => .unsupp

/-- the entries of a map, in the order in which `range` visits them -/
def Heap.entries (h : Heap) (l : Loc) : Out (List (Str × HVal)) :=
  match h.objs[l]? with
  | some (.map kvs) => .ok kvs
  | _ => .unsupp

/-- the bytes in cells -/
def toBytes : List HVal → Out (List UInt8)
  | [] => .ok []
  | .int i :: vs => do
    let bs ← toBytes vs
    return UInt8.ofNat i.toNat :: bs
  | _ :: _ => .unsupp

/-- the bytes of a byte slice -/
def Heap.byteList (h : Heap) (l off len : Nat) : Out (List UInt8) := do
  let vs ← h.window l off len
  toBytes vs

/-- see `writeElems` (field/marshalers.go:457-508) -/
def hwriteElems (f : Nat → HVal → W → Out (Option EErr × W)) :
    Nat → Bool → List HVal → W → Out (Option EErr × W)
  | _, _, [], w => .ok (none, w)
  | i, sep, v :: vs, w => do
    let (e, w) ← f i v (if sep then w.raw [','] else w)
    match e with
    | some e => return (some e, w)
    | none => hwriteElems f (i + 1) true vs w

/-- see `writeMembers` (field/marshalers.go:419-431) -/
def hwriteMembers (f : Str → HVal → W → Out (Option EErr × W)) :
    Bool → List (Str × HVal) → W → Out (Option EErr × W)
  | _, [], w => .ok (none, w)
  | sep, (k, v) :: rest, w => do
    let (e, w) ← f k v (((if sep then w.raw [','] else w).string k).raw [':'])
    match e with
    | some e => return (some e, w)
    | none => hwriteMembers f true rest w

/-- The statements of an element writer (field/marshal.go), see `runVExt`. -/
def hrunVExt [Ext] (M : Nat → HMethods) (label : ECtx) (h : Heap) : VExt → HVal → W → Out (Option EErr × W)
  | .int, .int i, w => .ok (none, w.raw (intStr i))
  | .float, .float f, w => .ok (none, w.raw (Ext.fmtFloat f))
  | .bool, .bool b, w => .ok (none, w.raw (boolText b))
  | .str, .str s, w => .ok (none, w.string s)
  | .time, .time t, w => .ok (none, w.raw (timeQuoted (str "2006-01-02T15:04:05.999999999Z07:00") t))
  | .call n, v, w => do
    let (e, w) ← (M n).marshalTo (some v) h w
    return (EErr.wrap? label e, w)
  | .callPtr n, .nil, w => do
    let (e, w) ← (M n).marshalTo none h w
    return (EErr.wrap? label e, w)
  | .callPtr n, .ptr l, w => do
    let v ← h.deref l
    let (e, w) ← (M n).marshalTo (some v) h w
    return (EErr.wrap? label e, w)
  | .star _, .nil, w => .ok (none, w.raw (str "null"))
  | .star x, .ptr l, w => do
    let v ← h.deref l
    hrunVExt M label h x v w
  | .arr _, .nil, w => .ok (none, w.raw (str "[]"))
  | .arr x, .slice l off len _, w => do
    let elems ← h.window l off len
    let (e, w) ← hwriteElems (fun _ v w => hrunVExt M label h x v w) 0 false elems (w.raw ['['])
    match e with
    | some e => return (some e, w)
    | none => return (none, w.raw [']'])
  | .arr x, .arr elems, w => do
    let (e, w) ← hwriteElems (fun _ v w => hrunVExt M label h x v w) 0 false elems (w.raw ['['])
    match e with
    | some e => return (some e, w)
    | none => return (none, w.raw [']'])
  | _, _, _ => .unsupp

/-- follow `d` pointers (the `*` of the emitted expressions, field/marshalers.go); a nil one on the way panics -/
def hderef (h : Heap) : Nat → HVal → Out HVal
  | 0, v => .ok v
  | d + 1, .ptr l => do
    let v ← h.deref l
    hderef h d v
  | _ + 1, .nil => .panic
  | _ + 1, _ => .unsupp

/-- `[`, elements, `]` (field/marshalers.go:457-508) -/
def hwriteList [Ext] (M : Nat → HMethods) (name : Str) (x : VExt) (elems : List HVal) (h : Heap) (w : W) :
    Out (Option EErr × W) := do
  let (e, w) ← hwriteElems (fun i v w => hrunVExt M (itemLabel name i) h x v w) 0 false elems (w.raw ['['])
  match e with
  | some e => return (some e, w)
  | none => return (none, w.raw [']'])

/-- `{`, members, `}` (field/marshalers.go:406-455) -/
def hwriteMap [Ext] (M : Nat → HMethods) (name : Str) (x : VExt) (kvs : List (Str × HVal)) (h : Heap) (w : W) :
    Out (Option EErr × W) := do
  let (e, w) ← hwriteMembers (fun k v w => hrunVExt M (memberLabel name k) h x v w) false kvs (w.raw ['{'])
  match e with
  | some e => return (some e, w)
  | none => return (none, w.raw ['}'])

/-- `MarshalJSON` (codegen/codegen.go:73-99) in terms of `MarshalTo`. -/
def hmarshalJSON (m : HMethods) (recv : Option HVal) (h : Heap) : Out (Except EErr Str) := do
  let (e, w) ← m.marshalTo recv h W.empty
  match e with
  | some e => return .error e
  | none => return w.build

/-- The `Block` of a field (field/marshalers.go), see `runBody`. -/
def hrunBody [Ext] (M : Nat → HMethods) (name : Str) (b : Body) (v : HVal) (h : Heap) (w : W) : Out (Option EErr × W) :=
  match b with
  | .prim pw d => do
    let v ← hderef h d v
    match pw, v with
    | .int, .int i => return (none, (w.raw (keyText name)).raw (intStr i))
    | .float, .float f => return (none, (w.raw (keyText name)).raw (Ext.fmtFloat f))
    | .str, .str s => return (none, (w.raw (keyText name)).string s)
    | _, _ => .unsupp
  | .boolTrue => .ok (none, w.raw (keyText name ++ str "true"))
  | .refBool d => do
    match ← hderef h d v with
    | .bool b => return (none, w.raw (keyText name ++ boolText b))
    | _ => .unsupp
  | .time layout d => do
    match ← hderef h d v with
    | .time t => return (none, (w.raw (keyText name)).raw (timeQuoted layout t))
    | _ => .unsupp
  | .uuid star => do
    match ← hderef h (if star then 1 else 0) v with
    | .uuid b => return (none, w.raw (keyText name ++ '"' :: (uuidText b ++ ['"'])))
    | _ => .unsupp
  | .struct n star => do
    let v ← hderef h (if star then 1 else 0) v
    let (e, w) ← (M n).marshalTo (some v) h (w.raw (keyText name))
    return (EErr.wrap? (.attr name) e, w)
  | .inline n => do
    let r ← hmarshalJSON (M n) (some v) h
    let (data, e) := unpackObject r
    return (none, w.rawData data e)
  | .map x =>
    match v with
    | .map l => do
      let kvs ← h.entries l
      hwriteMap M name x kvs h (w.raw (keyText name))
    | _ => .unsupp
  | .arr x =>
    match v with
    | .slice l off len _ => do
      let elems ← h.window l off len
      hwriteList M name x elems h (w.raw (keyText name))
    | .arr elems => hwriteList M name x elems h (w.raw (keyText name))
    | _ => .unsupp
  | .bytes =>
    match v with
    | .bytes l off len _ => do
      let b ← h.byteList l off len
      return (none, (w.raw (keyText name)).string (b64Encode b))
    | .barr b => .ok (none, (w.raw (keyText name)).string (b64Encode b))
    | _ => .unsupp

/-- comparison with the zero constant of the type (`==` of Go) -/
def heqZero : HVal → Bool
  | .int i => i == 0
  | .float f => f.isZero
  | .bool b => !b
  | .str s => s == []
  | .uuid b => b == uuidNil
  | .nil => true
  | .barr b => b.all (· == 0)
  | _ => false

/-- The condition `NotZero` (field/marshalers.go), see `runCond`. -/
def hrunCond (M : Nat → HMethods) (c : Cond) (v : HVal) (h : Heap) : Out Bool :=
  match c with
  | .neZero => .ok !(heqZero v)
  | .timeNotZero =>
    match v with
    | .time t => .ok !t.isZero
    | _ => .unsupp
  | .method n => do
    let z ← (M n).isZero v h
    return !z
  | .notNil2 =>
    match v with
    | .nil => .ok false
    | .ptr l => do
      match ← h.deref l with
      | .nil => .ok false
      | .ptr _ => .ok true
      | _ => .unsupp
    | _ => .unsupp

/-- `WriteBlock.Render` (field/marshalers.go:21-44); the flag is `wantComma`. -/
def hrunBlk [Ext] (M : Nat → HMethods) (b : Blk) (v : HVal) (h : Heap) (wc : Bool) (w : W) :
    Out (Option EErr × Bool × W) :=
  match b.cond with
  | none => do
    let (e, w) ← hrunBody M b.name b.body v h (putComma wc w)
    return (e, true, w)
  | some c => do
    let nz ← hrunCond M c v h
    if nz then
      let (e, w) ← hrunBody M b.name b.body v h (putComma wc w)
      return (e, true, w)
    else match b.ifZero with
      | some (t, sets) => return (none, wc || sets, (putComma wc w).raw (keyText b.name ++ t))
      | none => return (none, wc, w)

/-- The fields in order (codegen/struct.go:216-281), stopping at the first error. -/
def hrunBlks [Ext] (M : Nat → HMethods) (h : Heap) : List Blk → List HVal → Bool → W → Out (Option EErr × W)
  | [], [], _, w => .ok (none, w)
  | b :: bs, v :: vs, wc, w => do
    let (e, wc, w) ← hrunBlk M b v h wc w
    match e with
    | some e => return (some e, w)
    | none => hrunBlks M h bs vs wc w
  | _, _, _, _ => .unsupp

/-- `MarshalTo` of a declared type (codegen/{struct,map,array,byteslice,transit}.go, see
`runMarshal`); `none` is a nil receiver. -/
def hrunMarshal [Ext] (M : Nat → HMethods) (ir : MarshalIR) (recv : Option HVal) (h : Heap) (w : W) : Out (Option EErr × W) :=
  match ir with
  | .struct [] => .ok (none, w.raw (str "{}"))
  | .struct (b :: bs) =>
    match recv with
    | none => .ok (none, w.raw (str "null"))
    | some (.struct vs) => do
      let (e, w) ← hrunBlks M h (b :: bs) vs false (w.raw ['{'])
      match e with
      | some e => return (some e, w)
      | none => return (w.err, w.raw ['}'])
    | _ => .unsupp
  | .map x =>
    match recv with
    | none | some .nil => .ok (none, w.raw (str "null"))
    | some (.map l) => do
      let kvs ← h.entries l
      let (e, w) ← hwriteMap M [] x kvs h w
      match e with
      | some e => return (some e, w)
      | none => return (w.err, w)
    | _ => .unsupp
  | .list fixed x =>
    match recv with
    | none => .ok (none, w.raw (str "null"))
    | some .nil => if fixed then .unsupp else .ok (none, w.raw (str "null"))
    | some (.slice l off len _) => do
      let elems ← h.window l off len
      let (e, w) ← hwriteList M [] x elems h w
      match e with
      | some e => return (some e, w)
      | none => return (w.err, w)
    | some (.arr elems) => do
      let (e, w) ← hwriteList M [] x elems h w
      match e with
      | some e => return (some e, w)
      | none => return (w.err, w)
    | _ => .unsupp
  | .bytes fixed =>
    match recv with
    | none => .ok (none, w.raw (str "null"))
    | some .nil => if fixed then .unsupp else .ok (none, w.raw (str "null"))
    | some (.bytes l off len _) => do
      let b ← h.byteList l off len
      return (none, w.string (b64Encode b))
    | some (.barr b) => .ok (none, w.string (b64Encode b))
    | _ => .unsupp
  | .prim p =>
    match recv with
    | none => .ok (none, w.raw (str "null"))
    | some v =>
      match p, v with
      | .float32, .float f | .float64, .float f => .ok (none, w.raw (Ext.fmtFloat f))
      | .bool, .bool b => .ok (none, w.raw (boolText b))
      | .string, .str s => .ok (none, w.string s)
      | _, .int i => .ok (none, w.raw (intStr i))
      | _, _ => .unsupp
  | .time =>
    match recv with
    | none => .ok (none, w.raw (str "null"))
    | some (.time t) =>
      match Ext.timeText t with
      | some s => .ok (none, w.raw ('"' :: (s ++ ['"'])))
      | none => .ok (some ⟨[], codeTimeText⟩, w)
    | _ => .unsupp
  | .uuid =>
    match recv with
    | none => .ok (none, w.raw (str "null"))
    | some (.uuid b) => .ok (none, w.raw ('"' :: (uuidText b ++ ['"'])))
    | _ => .unsupp
  | .call n =>
    match recv with
    | none => .ok (none, w.raw (str "null"))
    | some v => (M n).marshalTo (some v) h w

/-! ## IsZero -/

/-- see `runZTest` (codegen/struct.go:283-333) -/
def hrunZTest (M : Nat → HMethods) (h : Heap) : ZTest → HVal → Out Bool
  | .const, v => .ok (heqZero v)
  | .time, .time t => .ok t.isZero
  | .time, _ => .unsupp
  | .method n, v => (M n).isZero v h

/-- every field in order (codegen/struct.go:283-333), stopping at the first that is not zero -/
def hrunZTests (M : Nat → HMethods) (h : Heap) : List ZTest → List HVal → Out Bool
  | [], [] => .ok true
  | t :: ts, v :: vs => do
    let z ← hrunZTest M h t v
    if z then hrunZTests M h ts vs else return false
  | _, _ => .unsupp

/-- codegen/array.go:276-282, see `runAll` -/
def hrunAll (M : Nat → HMethods) (h : Heap) (t : ZTest) : List HVal → Out Bool
  | [] => .ok true
  | v :: vs => do
    let z ← hrunZTest M h t v
    match t with
    | .const => if z then hrunAll M h t vs else return false
    | _ => if z then return false else hrunAll M h t vs

/-- `len` of a slice or map -/
def hlen (h : Heap) : HVal → Out Nat
  | .nil => .ok 0
  | .slice _ _ len _ => .ok len
  | .map l => do
    let kvs ← h.entries l
    return kvs.length
  | .bytes _ _ len _ => .ok len
  | _ => .unsupp

/-- `IsZero` of a declared type (codegen/{struct,map,array,byteslice,transit}.go, see `runZero`). -/
def hrunZero (M : Nat → HMethods) (ir : ZeroIR) (v : HVal) (h : Heap) : Out Bool :=
  match ir with
  | .never => .ok false
  | .struct ts =>
    match v with
    | .struct vs => hrunZTests M h ts vs
    | _ => .unsupp
  | .len => do
    let n ← hlen h v
    return n == 0
  | .all t =>
    match v with
    | .arr vs => hrunAll M h t vs
    | _ => .unsupp
  | .allBytes =>
    match v with
    | .barr b => .ok (b.all (· == 0))
    | _ => .unsupp
  | .single t => hrunZTest M h t v

end VJ
