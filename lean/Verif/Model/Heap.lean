import Verif.Model.Methods

/-!
# Memory

The model of `Model/RunFill.lean` works on values that are trees.  Here the same emitted code
runs on a memory with addresses (Go's, not part of /repo), so that slices can share a backing array, copies of a map
share the map, and pointers can form cycles.
-/

namespace VJ

/-- Address of an object in memory. -/
abbrev Loc := Nat

/-- Go values in memory.  What a value does not own is referred to by address:
* `ptr l`: the address of a variable;
* `slice l off len cap`: `cap` cells of the array at `l`, beginning with cell `off`;
* `bytes l off len cap`: the same for `[]byte`, whose cells hold numbers;
* `map l`: the map at `l`. -/
inductive HVal where
  | int (i : Int)
  | float (f : F64)
  | bool (b : Bool)
  | str (s : Str)
  | time (t : Time)
  | uuid (b : List UInt8)
  | nil
  | ptr (l : Loc)
  | slice (l : Loc) (off len cap : Nat)
  | arr (elems : List HVal)
  | map (l : Loc)
  | bytes (l : Loc) (off len cap : Nat)
  | barr (b : List UInt8)
  | struct (fields : List HVal)

/-- What an address refers to: a variable (one cell) or an array, or a map. -/
inductive Obj where
  | cells (vs : List HVal)
  | map (kvs : List (Str × HVal))

/-- Memory.  Nothing is freed. -/
structure Heap where
  objs : List Obj

/-- The next free address. -/
def Heap.size (h : Heap) : Nat := h.objs.length

/-- Allocate an object; its address is `h.size`. -/
def Heap.alloc (h : Heap) (o : Obj) : Heap := ⟨h.objs ++ [o]⟩

/-- The part of a value at a path of field and element numbers. -/
def HVal.at : List Nat → HVal → Option HVal
  | [], v => some v
  | i :: p, .struct fs => fs[i]?.bind (HVal.at p)
  | i :: p, .arr es => es[i]?.bind (HVal.at p)
  | _ :: _, _ => none

/-- The value with the part at a path replaced. -/
def HVal.put : List Nat → HVal → HVal → HVal
  | [], _, w => w
  | i :: p, .struct fs, w =>
    match fs[i]? with
    | some v => .struct (fs.set i (v.put p w))
    | none => .struct fs
  | i :: p, .arr es, w =>
    match es[i]? with
    | some v => .arr (es.set i (v.put p w))
    | none => .arr es
  | _ :: _, v, _ => v

/-- Something that can be assigned to: cell `idx` of the object at `loc`, or a part of it. -/
structure Spot where
  loc : Loc
  idx : Nat
  path : List Nat

/-- Field or element `i` of what is at a spot. -/
def Spot.part (p : Spot) (i : Nat) : Spot := { p with path := p.path ++ [i] }

/-- Cell `i` of the object at `l`. -/
def Spot.cell (l : Loc) (i : Nat) : Spot := ⟨l, i, []⟩

def Heap.read (h : Heap) (p : Spot) : Option HVal :=
  match h.objs[p.loc]? with
  | some (.cells vs) => vs[p.idx]?.bind (HVal.at p.path)
  | _ => none

def Heap.write (h : Heap) (p : Spot) (w : HVal) : Heap :=
  match h.objs[p.loc]? with
  | some (.cells vs) =>
    match vs[p.idx]? with
    | some v => ⟨h.objs.set p.loc (.cells (vs.set p.idx (v.put p.path w)))⟩
    | none => h
  | _ => h

/-- `m[key] = v` on the entries of a map -/
def kvSet (key : Str) (v : HVal) : List (Str × HVal) → List (Str × HVal)
  | [] => [(key, v)]
  | (k, w) :: rest => if k = key then (k, v) :: rest else (k, w) :: kvSet key v rest

/-- `m[key] = v` on the map at `l` -/
def Heap.mapPut (h : Heap) (l : Loc) (key : Str) (v : HVal) : Out Heap :=
  match h.objs[l]? with
  | some (.map kvs) => .ok ⟨h.objs.set l (.map (kvSet key v kvs))⟩
  | _ => .unsupp

/-- The cells of an array of bytes. -/
def byteCells (b : List UInt8) : List HVal := b.map fun x => .int x.toNat

/-- What the methods of a type do in memory.  The receiver of a method is a spot. -/
structure HMethods where
  zero : Out HVal
  conv : HVal → Out HVal
  fill : JV → Spot → Heap → Out (Option Err × Heap)
  /-- the value of the receiver, unless it is a nil pointer -/
  marshalTo : Option HVal → Heap → W → Out (Option EErr × W)
  isZero : HVal → Heap → Out Bool
  reset : Spot → Heap → Out Heap

def HMethods.loop : HMethods where
  zero := .loop
  conv := fun _ => .loop
  fill := fun _ _ _ => .loop
  marshalTo := fun _ _ _ => .loop
  isZero := fun _ _ => .loop
  reset := fun _ _ => .loop

/-- Methods of a type that has none. -/
def HMethods.unsupp : HMethods where
  zero := .unsupp
  conv := fun _ => .unsupp
  fill := fun _ _ _ => .unsupp
  marshalTo := fun _ _ _ => .unsupp
  isZero := fun _ _ => .unsupp
  reset := fun _ _ => .unsupp

/-- Go zero value of a predeclared type. -/
def Prim.hzero : Prim → HVal
  | .float32 | .float64 => .float 0
  | .bool => .bool false
  | .string => .str []
  | _ => .int 0

/-- Go conversion to a type with this underlying predeclared type. -/
def Prim.hconv [Ext] : Prim → HVal → HVal
  | .float32, .float f => .float (Ext.toFloat32 f)
  | p, .int i => .int (p.wrap i)
  | _, v => v

/-- Go zero value of a type expression. -/
def hzeroT (M : Nat → HMethods) : TExpr → Out HVal
  | .prim p => .ok p.hzero
  | .named n | .sel n => (M n).zero
  | .time => .ok (.time .zero)
  | .uuid => .ok (.uuid uuidNil)
  | .structT => .unsupp
  | .star _ | .slice _ | .map _ => .ok .nil
  | .array n t =>
    if t.isByte then .ok (.barr (List.replicate n 0))
    else do
      let z ← hzeroT M t
      return .arr (List.replicate n z)

/-- Go conversion `T(x)`: a slice, map or pointer converted to another type refers to the
same memory. -/
def hconvT [Ext] (M : Nat → HMethods) : TExpr → HVal → Out HVal
  | .prim p, v => .ok (p.hconv v)
  | .named n, v | .sel n, v => (M n).conv v
  | _, v => .ok v

/-- The call `x.FillFromJSON(v)` with `x` at a spot. -/
def hfillT (M : Nat → HMethods) : TExpr → JV → Spot → Heap → Out (Option Err × Heap)
  | .named n, v, p, h | .sel n, v, p, h => (M n).fill v p h
  | _, _, _, _ => .unsupp

/-- How an extraction template ends (`TV`): what is in the field is in memory. -/
inductive HTV where
  | ret (e : Err)
  | done (r : Except Err HVal)

/-- How one round of a slice loop ends. -/
inductive HCell where
  | store
  | ret (e : Err)
  | brk (e : Err)

/-- The loop over a slice that is extended by one cell per round (field/fill.go:92-99), or
over an array: round `i` works on `pl i`, of which there are `cap`. -/
def hsliceLoop (f : Nat → JV → Spot → Heap → Out (HCell × Heap)) (pl : Nat → Spot) (cap : Nat) :
    Nat → List JV → Heap → Out (Stop × Nat × Heap)
  | i, [], h => .ok (.fin, i, h)
  | i, a :: as, h =>
    if i < cap then do
      let (c, h) ← f i a (pl i) h
      match c with
      | .store => hsliceLoop f pl cap (i + 1) as h
      | .ret e => return (.ret e, i + 1, h)
      | .brk e => return (.brk e, i + 1, h)
    else .panic

/-- Put an extracted element into its cell (field/fill.go:117-139, 170-185). -/
def hstoreElem [Ext] (M : Nat → HMethods) (st : ElemStore) (val : HVal) (p : Spot) (h : Heap) : Out Heap :=
  match st with
  | .ref t => do
    let w ← hconvT M t val
    return (h.alloc (.cells [w])).write p (.ptr h.size)
  | .val t => do
    let w ← hconvT M t val
    return h.write p w
  | .filled => .ok h

/-- One round of a slice loop (field/fill.go:100-139). -/
def helemRound [Ext] (M : Nat → HMethods) (nullable brk : Bool) (st : ElemStore)
    (x : Nat → JV → Spot → Heap → Out (HTV × Heap)) (i : Nat) (a : JV) (p : Spot) (h : Heap) :
    Out (HCell × Heap) :=
  if nullable && a.isNull then .ok (.store, h.write p .nil)
  else do
    let (t, h) ← x i a p h
    match t with
    | .ret e => return (.ret e, h)
    | .done (.error e) => if brk then return (.brk (newParsingError (natStr i) e), h) else .unsupp
    | .done (.ok val) =>
      let h ← hstoreElem M st val p h
      return (.store, h)

/-- The loop over the members of an object that fills the map at `l` (field/fill.go:395-431,
codegen/map.go:110-172). -/
def hmapLoop [Ext] (M : Nat → HMethods) (star : Bool) (val : TExpr) (x : JV → Heap → Out (HTV × Heap)) (l : Loc) :
    List (Str × JV) → Heap → Out (Option Err × Heap)
  | [], h => .ok (none, h)
  | (key, v) :: rest, h =>
    if star && v.isNull then do
      let h ← h.mapPut l key .nil
      hmapLoop M star val x l rest h
    else do
      let (t, h) ← x v h
      match t with
      | .ret _ => .unsupp
      | .done (.error e) => return (some (newParsingError key e), h)
      | .done (.ok w) =>
        let w ← hconvT M val w
        if star then
          let h' ← (h.alloc (.cells [w])).mapPut l key (.ptr h.size)
          hmapLoop M star val x l rest h'
        else
          let h' ← h.mapPut l key w
          hmapLoop M star val x l rest h'

/-- `make([]byte, …)` with these contents -/
def newBytes (b : List UInt8) (h : Heap) : HVal × Heap :=
  (.bytes h.size 0 b.length b.length, h.alloc (.cells (byteCells b)))

/-- `ByteSliceFillFrom` (field/byteslice.go:12-83), see `bytesFill`; a byte slice gets a new
array (`dest = make([]byte, …)`, field/byteslice.go:24-33). -/
def hbytesFill (len : Option Nat) (v : JV) (d : HVal) (h : Heap) : Out (Option Err × HVal × Heap) :=
  if v.isNull then .ok (none, d, h)
  else match v.getStr with
    | .error c => .ok (some (.plain c), d, h)
    | .ok s =>
      let r := b64Decode s
      match len with
      | none =>
        if r.2 then .ok (none, newBytes r.1 h)
        else .ok (some (.plain (.badBase64 s)),
          newBytes (r.1 ++ List.replicate (b64DecodedLen (byteLen s) - r.1.length) 0) h)
      | some n =>
        match d with
        | .barr old =>
          if r.1.length > n then .panic
          else
            let d' := r.1 ++ old.drop r.1.length
            if ¬ r.2 then .ok (some (.plain (.badBase64 s)), .barr d', h)
            else if r.1.length ≠ n then .ok (some (.plain .incomplete), .barr d', h)
            else .ok (none, .barr d', h)
        | _ => .unsupp

/-- `var d []byte` / `var d [N]byte` -/
def hbytesVar : Option Nat → HVal
  | none => .nil
  | some n => .barr (List.replicate n 0)

/-- Where `sliceExtraction` puts its elements (field/extractors.go:50-72): a new array of `l`
cells, or the array the field refers to.  Result: address, offset and capacity. -/
def hsliceCells (l : Nat) (z : HVal) (h : Heap) : HVal → Out ((Loc × Nat × Nat) × Heap)
  | .nil => .ok ((h.size, 0, l), h.alloc (.cells (List.replicate l z)))
  | .slice a off _ cap =>
    if cap < l then .ok ((h.size, 0, l), h.alloc (.cells (List.replicate l z)))
    else .ok ((a, off, cap), h)
  | _ => .unsupp

/-- Running a template on `v` (field/extractors.go, field/fill.go; see `runExtr`, which has the
lines template by template); `i` is the enclosing loop index, `p` the field or cell. -/
def hrunExtr [Ext] (M : Nat → HMethods) : Extr → Nat → JV → Spot → Heap → Out (HTV × Heap)
  | .int, _, v, _, h =>
    .ok (.done (match v.getInt with | .ok i => .ok (.int i) | .error c => .error (.plain c)), h)
  | .uint, _, v, _, h =>
    .ok (.done (match v.getUint with | .ok i => .ok (.int i) | .error c => .error (.plain c)), h)
  | .float, _, v, _, h =>
    .ok (.done (match v.getFloat with | .ok f => .ok (.float f) | .error c => .error (.plain c)), h)
  | .bool, _, v, _, h =>
    .ok (.done (match v.getBool with | .ok b => .ok (.bool b) | .error c => .error (.plain c)), h)
  | .strChecked path, i, v, _, h =>
    match v.getStr with
    | .ok s => .ok (.done (.ok (.str s)), h)
    | .error c =>
      let p := match path with
        | .const s => s
        | .index => natStr i
      .ok (.ret (newParsingError p (.plain c)), h)
  | .strUnchecked, _, v, _, h =>
    .ok (.done (match v.getStr with | .ok s => .ok (.str s) | .error c => .error (.plain c)), h)
  | .time json layout, _, v, _, h =>
    match v.getStr with
    | .error c => .ok (.ret (newParsingError json (.plain c)), h)
    | .ok s =>
      let r := match layout with
        | none => parseDateTime s
        | some l => Ext.parseTime l s
      .ok (.done (match r with | some t => .ok (.time t) | none => .error (.plain (.badTime s))), h)
  | .uuid json, _, v, _, h =>
    match v.getStr with
    | .error c => .ok (.ret (newParsingError json (.plain c)), h)
    | .ok s =>
      .ok (.done (match parseUUID s with | some b => .ok (.uuid b) | none => .error (.plain (.badUUID s))), h)
  | .nestedFresh t, _, v, _, h => do
    -- `var d T` is a variable of its own
    let z ← hzeroT M t
    let (e, h') ← hfillT M t v (.cell h.size 0) (h.alloc (.cells [z]))
    match e with
    | some e => return (.done (.error e), h')
    | none =>
      match h'.read (.cell h.size 0) with
      | some w => return (.done (.ok w), h')
      | none => .unsupp
  | .nestedInPlace t, _, v, p, h => do
    let (e, h') ← hfillT M t v p h
    match e with
    | some e => return (.done (.error e), h')
    | none =>
      match h'.read p with
      | some w => return (.done (.ok w), h')
      | none => .unsupp
  | .bytes len, _, v, _, h => do
    let (e, d, h) ← hbytesFill len v (hbytesVar len) h
    match e with
    | some e => return (.ret e, h)
    | none => return (.done (.ok d), h)
  | .slice json elt nullable x brk st, _, v, p, h =>
    match v.getArr with
    | .error c => .ok (.ret (newParsingError json (.plain c)), h)
    | .ok l => do
      let z ← hzeroT M elt
      match h.read p with
      | none => .unsupp
      | some fld =>
        let ((a, off, cap), h) ← hsliceCells l.length z h fld
        let (stop, n, h) ← hsliceLoop (helemRound M nullable brk st (hrunExtr M x)) (fun i => .cell a (off + i)) cap 0 l h
        match stop with
        | .fin => return (.done (.ok (.slice a off n cap)), h)
        | .ret e => return (.ret e, h)
        | .brk e =>
          if x.declaresErr then return (.done (.ok (.slice a off n cap)), h)
          else return (.done (.error e), h)
  | .array json len elt x brk st, _, v, _, h =>
    match v.getArr with
    | .error c => .ok (.ret (newParsingError json (.plain c)), h)
    | .ok l =>
      if l.length ≠ len then .ok (.ret (newParsingError json (.plain .lenMismatch)), h)
      else do
        -- the local array variable is an object of its own
        let z ← hzeroT M elt
        let (stop, _, h') ← hsliceLoop (helemRound M false brk st (hrunExtr M x)) (.cell h.size) len 0 l
          (h.alloc (.cells (List.replicate len z)))
        let r ← (match h'.objs[h.size]? with
          | some (.cells vs) => .ok (.arr vs)
          | _ => .unsupp : Out HVal)
        match stop with
        | .fin => return (.done (.ok r), h')
        | .ret e => return (.ret e, h')
        | .brk e => if x.declaresErr then return (.done (.ok r), h') else return (.done (.error e), h')
  | .map json star val x, _, v, p, h =>
    match v.getObj with
    | .error c => .ok (.ret (newParsingError json (.plain c)), h)
    | .ok kvs => do
      let (l, h) ← (match h.read p with
        | some .nil => .ok (h.size, h.alloc (.map []))
        | some (.map l) => .ok (l, h)
        | _ => .unsupp : Out (Loc × Heap))
      -- the variable `value` of the closure is an object of its own
      let (e, h) ← hmapLoop M star val
        (fun v h => hrunExtr M x 0 v (.cell h.size 0) (h.alloc (.cells [.nil]))) l kvs h
      match e with
      | none => return (.done (.ok (.map l)), h)
      | some e => return (.done (.error e), h)

/-- `val > max` (field/fill.go:460-461) -/
def hexceeds [Ext] : MaxCheck → HVal → Option Cause
  | .int m, .int i => if i > m then some (.exceedsMax i) else none
  | .float32, .float f => if Ext.gtMaxFloat32 f then some (.exceedsMaxF f) else none
  | _, _ => none

/-- the assignment to the field (field/fill.go:538-719), see `storeField` -/
def hstoreField [Ext] (M : Nat → HMethods) (st : Store) (val : HVal) (p : Spot) (h : Heap) : Out Heap :=
  match st with
  | .filled => .ok h
  | .val t => do
    let w ← hconvT M t val
    return h.write p w
  | .ref t | .named t => do
    let w ← hconvT M t val
    return (h.alloc (.cells [w])).write p (.ptr h.size)
  | .refNamed t => do
    let w ← hconvT M t val
    let h' := h.alloc (.cells [w])
    return (h'.alloc (.cells [.ptr h.size])).write p (.ptr h'.size)

mutual
/-- Build a value in memory, every part of it in an object of its own (composite literals,
`new`, `&x`). -/
def layOut : GoVal → Heap → HVal × Heap
  | .int i, h => (.int i, h)
  | .float f, h => (.float f, h)
  | .bool b, h => (.bool b, h)
  | .str s, h => (.str s, h)
  | .time t, h => (.time t, h)
  | .uuid b, h => (.uuid b, h)
  | .nil, h => (.nil, h)
  | .ptr g, h =>
    let (v, h) := layOut g h
    (.ptr h.size, h.alloc (.cells [v]))
  | .slice es sp, h =>
    let (vs, h) := layOutL es h
    let (ws, h) := layOutL sp h
    (.slice h.size 0 vs.length (vs.length + ws.length), h.alloc (.cells (vs ++ ws)))
  | .arr es, h =>
    let (vs, h) := layOutL es h
    (.arr vs, h)
  | .map kvs, h =>
    let (ws, h) := layOutKV kvs h
    (.map h.size, h.alloc (.map ws))
  | .bytes b, h => newBytes b h
  | .barr b, h => (.barr b, h)
  | .struct fs, h =>
    let (vs, h) := layOutL fs h
    (.struct vs, h)
def layOutL : List GoVal → Heap → List HVal × Heap
  | [], h => ([], h)
  | g :: gs, h =>
    let (v, h) := layOut g h
    let (vs, h) := layOutL gs h
    (v :: vs, h)
def layOutKV : List (Str × GoVal) → Heap → List (Str × HVal) × Heap
  | [], h => ([], h)
  | (k, g) :: rest, h =>
    let (v, h) := layOut g h
    let (vs, h) := layOutKV rest h
    ((k, v) :: vs, h)
end

/-- The `if x := v.Get(json); cond { … } else { … }` of one field (field/fields.go:107-135). -/
def hrunField [Ext] (M : Nat → HMethods) (f : FieldFill) (v : JV) (p : Spot) (h : Heap) : Out (Option Err × Heap) :=
  let x := if f.json = [] then some v else v.get f.json
  let present := match x with
    | none => none
    | some w => if f.nullable && w.isNull then none else some w
  match present with
  | some w => do
    let (t, h) ← hrunExtr M f.x 0 w p h
    match t with
    | .ret e => return (some e, h)
    | .done (.error e) => if f.check then return (some (newParsingError f.json e), h) else .unsupp
    | .done (.ok val) =>
      match f.max.bind (hexceeds · val) with
      | some c => return (some (newParsingError f.json (.plain c)), h)
      | none =>
        let h ← hstoreField M f.store val p h
        return (none, h)
  | none =>
    match f.dflt with
    | .nothing => .ok (none, h)
    | .required => .ok (some (newParsingError f.json (.plain (.required f.json))), h)
    | .value d onlyAbsent =>
      if onlyAbsent && x.isSome then .ok (none, h)
      else
        let (w, h) := layOut d h
        .ok (none, h.write p w)

/-- All fields in order (codegen/struct.go:37-96), stopping at the first error; `i` is the number of the first, `n` the
number of fields. -/
def hrunFields [Ext] (M : Nat → HMethods) (v : JV) (p : Spot) : Nat → Nat → List (Option FieldFill) → Heap → Out (Option Err × Heap)
  | 0, _, [], h => .ok (none, h)
  | n + 1, i, none :: fs, h => hrunFields M v p n (i + 1) fs h
  | n + 1, i, some f :: fs, h => do
    let (e, h) ← hrunField M f v (p.part i) h
    match e with
    | some e => return (some e, h)
    | none => hrunFields M v p n (i + 1) fs h
  | _, _, _, _ => .unsupp

/-- One round of the loop of a named slice or array type (codegen/array.go:100-131). -/
def hlistRound [Ext] (M : Nat → HMethods) (elt : TExpr) (x : Extr) (i : Nat) (a : JV) (p : Spot) (h : Heap) :
    Out (HCell × Heap) := do
  let (t, h) ← hrunExtr M x i a (.cell h.size 0) (h.alloc (.cells [.nil]))
  match t with
  | .ret e => return (.ret e, h)
  | .done (.error e) => return (.ret (newParsingError (natStr i) e), h)
  | .done (.ok val) =>
    let w ← hconvT M elt val
    return (.store, h.write p w)

/-- `FillFromJSON` of a declared type, the receiver at `p` (codegen/struct.go:37-96,
codegen/map.go:55-172, codegen/array.go:32-131, codegen/byteslice.go:50-70, codegen/transit.go; see
`runFill`). -/
def hrunFill [Ext] (M : Nat → HMethods) : FillIR → JV → Spot → Heap → Out (Option Err × Heap)
  | .struct names strict fields, v, p, h =>
    match h.read p with
    | some (.struct fs) =>
      match validate names strict v with
      | some e => .ok (some e, h)
      | none => hrunFields M v p fs.length 0 fields h
    | _ => .unsupp
  | .map star val x, v, p, h =>
    if v.isNull then .ok (none, h)
    else match v.getObj with
      | .error c => .ok (some (.plain c), h)
      | .ok kvs =>
        -- `*m = make(map[…]…, o.Len())`
        hmapLoop M star val
          (fun v h => hrunExtr M x 0 v (.cell h.size 0) (h.alloc (.cells [.nil]))) h.size kvs
          ((h.alloc (.map [])).write p (.map h.size))
  | .list none elt x, v, p, h =>
    if v.isNull then .ok (none, h)
    else match v.getArr with
      | .error c => .ok (some (.plain c), h)
      | .ok l => do
        -- `*s = make([]…, len(a))`
        let z ← hzeroT M elt
        let (stop, _, h') ← hsliceLoop (hlistRound M elt x) (.cell h.size) l.length 0 l
          ((h.alloc (.cells (List.replicate l.length z))).write p (.slice h.size 0 l.length l.length))
        return (stop.err, h')
  | .list (some n) elt x, v, p, h =>
    if v.isNull then .ok (none, h)
    else match v.getArr with
      | .error c => .ok (some (.plain c), h)
      | .ok l =>
        if n ≠ l.length then .ok (some (.plain (.wrongCount n l.length)), h)
        else match h.read p with
          | some (.arr es) =>
            do
              let (stop, _, h') ← hsliceLoop (hlistRound M elt x) p.part es.length 0 l h
              return (stop.err, h')
          | _ => .unsupp
  | .bytes len, v, p, h =>
    match h.read p with
    | none => .unsupp
    | some d => do
      let (e, d', h) ← hbytesFill len v d h
      return (e, h.write p d')
  | .transit t x, v, p, h => do
    let (r, h) ← hrunExtr M x 0 v p h
    match r with
    | .ret e => return (some e, h)
    | .done (.error e) => return (some e, h)
    | .done (.ok val) =>
      let w ← hconvT M t val
      return (none, h.write p w)

/-- zero values of struct fields -/
def hzeroFields (M : Nat → HMethods) : List FieldDecl → Out (List HVal)
  | [] => .ok []
  | fd :: fds => do
    let z ← hzeroT M fd.typ
    let zs ← hzeroFields M fds
    return z :: zs

end VJ
