import Verif.Model.GenFill

/-!
# Meaning of the emitted decoding code

Methods of other types are taken from a method table `M`.
-/

namespace VJ

/-- Go zero value of a type expression. -/
def zeroT (M : Nat → Methods) : TExpr → Out GoVal
  | .prim p => .ok p.zero
  | .named n | .sel n => (M n).zero
  | .time => .ok (.time .zero)
  | .uuid => .ok (.uuid uuidNil)
  | .structT => .unsupp
  | .star _ | .slice _ | .map _ => .ok .nil
  | .array n t =>
    if t.isByte then .ok (.barr (List.replicate n 0))
    else do
      let z ← zeroT M t
      return .arr (List.replicate n z)

/-- Go conversion `T(x)`. -/
def convT [Ext] (M : Nat → Methods) : TExpr → GoVal → Out GoVal
  | .prim p, v => .ok (p.conv v)
  | .named n, v | .sel n, v => (M n).conv v
  | _, v => .ok v

/-- The call `x.FillFromJSON(v)` on a variable of a named type. -/
def fillT (M : Nat → Methods) : TExpr → JV → GoVal → Out (Option Err × GoVal)
  | .named n, v, x | .sel n, v, x => (M n).fill v x
  | _, _, _ => .unsupp

/-- Result of running an extraction template: `ret`, the enclosing function returned;
`done`, control reached the end of the template with the `err` variable nil (and the value
of the local variable) or not.  The second component is the field (or slice cell) the
template may work on in place. -/
inductive TV where
  | ret (e : Err) (fld : GoVal)
  | done (r : Except Err GoVal) (fld : GoVal)

/-- What one round of a slice loop leaves in the cell. -/
inductive Cell where
  | store (v : GoVal)
  | ret (e : Err) (v : GoVal)
  | brk (e : Err) (v : GoVal)

/-- How a loop over the elements ended. -/
inductive Stop where
  | fin
  | ret (e : Err)
  | brk (e : Err)

/-- The loop `for i, a := range listA` over a slice that is extended by one cell per round
(`dst = dst[:len(dst)+1]`, field/fill.go:92-99): `cells` is what is left of the backing
array, and extending beyond it panics.  Returns how the loop ended, the number of rounds
begun, and the cells. -/
def sliceLoop (f : Nat → JV → GoVal → Out Cell) : Nat → List JV → List GoVal → Out (Stop × Nat × List GoVal)
  | i, [], cells => .ok (.fin, i, cells)
  | _, _ :: _, [] => .panic
  | i, a :: as, c :: cs => do
    match ← f i a c with
    | .store w =>
      let (s, n, cs') ← sliceLoop f (i + 1) as cs
      return (s, n, w :: cs')
    | .ret e w => return (.ret e, i + 1, w :: cs)
    | .brk e w => return (.brk e, i + 1, w :: cs)

/-- Put an extracted element into its cell (field/fill.go:117-139, 170-185); `c` is the cell
as the template left it. -/
def storeElem [Ext] (M : Nat → Methods) (st : ElemStore) (val c : GoVal) : Out GoVal :=
  match st with
  | .ref t => do
    let w ← convT M t val
    return .ptr w
  | .val t => convT M t val
  | .filled => .ok c

/-- One round of a slice loop (field/fill.go:100-139). -/
def elemRound [Ext] (M : Nat → Methods) (nullable brk : Bool) (st : ElemStore)
    (x : Nat → JV → GoVal → Out TV) (i : Nat) (a : JV) (c : GoVal) : Out Cell :=
  if nullable && a.isNull then .ok (.store .nil)
  else do
    match ← x i a c with
    | .ret e c' => return .ret e c'
    | .done (.error e) c' =>
      -- without the check (elements of type string) the template returns by itself
      if brk then return .brk (newParsingError (natStr i) e) c' else .unsupp
    | .done (.ok val) c' =>
      let w ← storeElem M st val c'
      return .store w

/-- The loop over the members of an object that fills a map (field/fill.go:395-431): stops
at the first error. -/
def mapLoop [Ext] (M : Nat → Methods) (star : Bool) (val : TExpr) (x : JV → Out TV) :
    List (Str × JV) → List (Str × GoVal) → Out (Option Err × List (Str × GoVal))
  | [], m => .ok (none, m)
  | (key, v) :: rest, m =>
    if star && v.isNull then mapLoop M star val x rest (mapSet key .nil m)
    else do
      match ← x v with
      | .ret _ _ => .unsupp      -- not valid Go inside the closure
      | .done (.error e) _ => return (some (newParsingError key e), m)
      | .done (.ok w) _ =>
        let w ← convT M val w
        mapLoop M star val x rest (mapSet key (if star then .ptr w else w) m)

/-- `ByteSliceFillFrom` (field/byteslice.go:12-83) on a destination `d`: the error returned,
if any, and the destination afterwards.  Simplification: after an error the contents of a
fixed array are not described beyond the bytes decoded so far. -/
def bytesFill (len : Option Nat) (v : JV) (d : GoVal) : Out (Option Err × GoVal) :=
  if v.isNull then .ok (none, d)
  else match v.getStr with
    | .error c => .ok (some (.plain c), d)
    | .ok s =>
      let r := b64Decode s
      match len with
      | none =>
        if r.2 then .ok (none, .bytes r.1)
        else .ok (some (.plain (.badBase64 s)),
          .bytes (r.1 ++ List.replicate (b64DecodedLen (byteLen s) - r.1.length) 0))
      | some n =>
        match d with
        | .barr old =>
          if r.1.length > n then .panic        -- the decoder writes past the end of the array
          else
            let d' := r.1 ++ old.drop r.1.length
            if ¬ r.2 then .ok (some (.plain (.badBase64 s)), .barr d')
            else if r.1.length ≠ n then .ok (some (.plain .incomplete), .barr d')
            else .ok (none, .barr d')
        | _ => .unsupp

/-- `var d []byte` / `var d [N]byte` -/
def bytesVar : Option Nat → GoVal
  | none => .nil
  | some n => .barr (List.replicate n 0)

/-- Split cells into a slice with `n` elements. -/
def mkSlice (n : Nat) (cells : List GoVal) : GoVal := .slice (cells.take n) (cells.drop n)

/-- The cells the loop of `sliceExtraction` works on (field/extractors.go:50-72): a fresh
zeroed backing array of `l` cells, or the whole existing one.  The flag: fresh. -/
def sliceCells (l : Nat) (z : GoVal) : GoVal → Out (Bool × List GoVal)
  | .nil => .ok (true, List.replicate l z)          -- cap 0 < l, or l = 0 and nil
  | .slice elems spare =>
    if elems.length + spare.length < l then .ok (true, List.replicate l z)
    else .ok (false, elems ++ spare)
  | _ => .unsupp

/-- The field after the loop, before any assignment to it: when its own backing array was
used, its elements show what the loop wrote. -/
def fieldAfter (fresh : Bool) (fld : GoVal) (cells : List GoVal) : GoVal :=
  match fresh, fld with
  | false, .slice elems _ => mkSlice elems.length cells
  | _, fld => fld

/-- Running a template on `v`; `i` is the enclosing loop index, `fld` the field or cell. -/
def runExtr [Ext] (M : Nat → Methods) : Extr → Nat → JV → GoVal → Out TV
  | .int, _, v, fld =>
    .ok (.done (match v.getInt with | .ok i => .ok (.int i) | .error c => .error (.plain c)) fld)
  | .uint, _, v, fld =>
    .ok (.done (match v.getUint with | .ok i => .ok (.int i) | .error c => .error (.plain c)) fld)
  | .float, _, v, fld =>
    .ok (.done (match v.getFloat with | .ok f => .ok (.float f) | .error c => .error (.plain c)) fld)
  | .bool, _, v, fld =>
    .ok (.done (match v.getBool with | .ok b => .ok (.bool b) | .error c => .error (.plain c)) fld)
  | .strChecked path, i, v, fld =>
    match v.getStr with
    | .ok s => .ok (.done (.ok (.str s)) fld)
    | .error c =>
      let p := match path with
        | .const s => s
        | .index => natStr i
      .ok (.ret (newParsingError p (.plain c)) fld)
  | .strUnchecked, _, v, fld =>
    .ok (.done (match v.getStr with | .ok s => .ok (.str s) | .error c => .error (.plain c)) fld)
  | .time json layout, _, v, fld =>
    match v.getStr with
    | .error c => .ok (.ret (newParsingError json (.plain c)) fld)
    | .ok s =>
      let r := match layout with
        | none => parseDateTime s
        | some l => Ext.parseTime l s
      .ok (.done (match r with | some t => .ok (.time t) | none => .error (.plain (.badTime s))) fld)
  | .uuid json, _, v, fld =>
    match v.getStr with
    | .error c => .ok (.ret (newParsingError json (.plain c)) fld)
    | .ok s =>
      .ok (.done (match parseUUID s with | some b => .ok (.uuid b) | none => .error (.plain (.badUUID s))) fld)
  | .nestedFresh t, _, v, fld => do
    let z ← zeroT M t
    let (e, w) ← fillT M t v z
    return .done (match e with | none => .ok w | some e => .error e) fld
  | .nestedInPlace t, _, v, fld => do
    let (e, w) ← fillT M t v fld
    return .done (match e with | none => .ok w | some e => .error e) w
  | .bytes len, _, v, fld => do
    let (e, d) ← bytesFill len v (bytesVar len)
    match e with
    | some e => return .ret e fld
    | none => return .done (.ok d) fld
  | .slice json elt nullable x brk st, _, v, fld =>
    match v.getArr with
    | .error c => .ok (.ret (newParsingError json (.plain c)) fld)
    | .ok l => do
      let z ← zeroT M elt
      let (fresh, cells) ← sliceCells l.length z fld
      let (stop, n, cells') ← sliceLoop (elemRound M nullable brk st (runExtr M x)) 0 l cells
      let fld' := fieldAfter fresh fld cells'
      match stop with
      | .fin => return .done (.ok (mkSlice n cells')) fld'
      | .ret e => return .ret e fld'
      | .brk e =>
        -- an `err` declared inside the loop body does not survive the loop
        if x.declaresErr then return .done (.ok (mkSlice n cells')) fld'
        else return .done (.error e) fld'
  | .array json len elt x brk st, _, v, fld =>
    match v.getArr with
    | .error c => .ok (.ret (newParsingError json (.plain c)) fld)
    | .ok l =>
      if l.length ≠ len then .ok (.ret (newParsingError json (.plain .lenMismatch)) fld)
      else do
        let z ← zeroT M elt
        let (stop, _, cells) ← sliceLoop (elemRound M false brk st (runExtr M x)) 0 l (List.replicate len z)
        match stop with
        | .fin => return .done (.ok (.arr cells)) fld
        | .ret e => return .ret e fld
        | .brk e => if x.declaresErr then return .done (.ok (.arr cells)) fld else return .done (.error e) fld
  | .map json star val x, _, v, fld =>
    match v.getObj with
    | .error c => .ok (.ret (newParsingError json (.plain c)) fld)
    | .ok kvs => do
      let m0 ← (match fld with
        | .nil => .ok ([], true)
        | .map m => .ok (m, false)
        | _ => .unsupp : Out (List (Str × GoVal) × Bool))
      let (e, m) ← mapLoop M star val (fun v => runExtr M x 0 v .nil) kvs m0.1
      let fld' := if m0.2 then fld else .map m
      match e with
      | none => return .done (.ok (.map m)) fld'
      | some e => return .done (.error e) fld'

/-- `val > max` (field/fill.go:460-461) -/
def exceeds [Ext] : MaxCheck → GoVal → Option Cause
  | .int m, .int i => if i > m then some (.exceedsMax i) else none
  | .float32, .float f => if Ext.gtMaxFloat32 f then some (.exceedsMaxF f) else none
  | _, _ => none

/-- the assignment to the field -/
def storeField [Ext] (M : Nat → Methods) (st : Store) (val fld : GoVal) : Out GoVal :=
  match st with
  | .filled => .ok fld
  | .val t => convT M t val
  | .ref t => do
    let w ← convT M t val
    return .ptr w
  | .named t => do
    let w ← convT M t val
    return .ptr w
  | .refNamed t => do
    let w ← convT M t val
    return .ptr (.ptr w)

/-- The `if x := v.Get(json); cond { … } else { … }` of one field
(field/fields.go:107-135).  Returns the error of `FillFromJSON`, if it returns here, and the
field afterwards. -/
def runField [Ext] (M : Nat → Methods) (f : FieldFill) (v : JV) (fld : GoVal) : Out (Option Err × GoVal) :=
  let x := if f.json = [] then some v else v.get f.json
  let present := match x with
    | none => none
    | some w => if f.nullable && w.isNull then none else some w
  match present with
  | some w => do
    match ← runExtr M f.x 0 w fld with
    | .ret e fld' => return (some e, fld')
    | .done (.error e) fld' =>
      if f.check then return (some (newParsingError f.json e), fld') else .unsupp
    | .done (.ok val) fld' =>
      match f.max.bind (exceeds · val) with
      | some c => return (some (newParsingError f.json (.plain c)), fld')
      | none =>
        let r ← storeField M f.store val fld'
        return (none, r)
  | none =>
    match f.dflt with
    | .nothing => .ok (none, fld)
    | .required => .ok (some (newParsingError f.json (.plain (.required f.json))), fld)
    | .value d onlyAbsent =>
      if onlyAbsent && x.isSome then .ok (none, fld) else .ok (none, d)

/-- All fields in order, stopping at the first error. -/
def runFields [Ext] (M : Nat → Methods) (v : JV) : List (Option FieldFill) → List GoVal → Out (Option Err × List GoVal)
  | [], [] => .ok (none, [])
  | none :: fs, g :: gs => do
    let (e, gs') ← runFields M v fs gs
    return (e, g :: gs')
  | some f :: fs, g :: gs => do
    let (e, g') ← runField M f v g
    match e with
    | some e => return (some e, g' :: gs)
    | none =>
      let (e, gs') ← runFields M v fs gs
      return (e, g' :: gs')
  | _, _ => .unsupp

/-- Increment the counter of the first field with that name (codegen/struct.go:128-158). -/
def bump (key : Str) : List Str → List Nat → Option (Nat × List Nat)
  | n :: ns, c :: cs =>
    if n = key then some (c + 1, (c + 1) :: cs)
    else (bump key ns cs).map fun r => (r.1, c :: r.2)
  | _, _ => none

/-- The `o.Visit` closure of `validate` over the members (codegen/struct.go:115-171). -/
def validateLoop (names : List Str) (strict : Bool) : List (Str × JV) → List Nat → Option Err
  | [], _ => none
  | (key, _) :: rest, cs =>
    match bump key names cs with
    | some (c, cs') =>
      if c > 1 then some (newParsingError key (.plain (.twice key)))
      else validateLoop names strict rest cs'
    | none =>
      if strict then some (.plain (.unexpected key)) else validateLoop names strict rest cs

/-- `validate` (codegen/struct.go:98-202). -/
def validate (names : List Str) (strict : Bool) (v : JV) : Option Err :=
  match v.getObj with
  | .error c => some (.plain c)
  | .ok kvs => validateLoop names strict kvs (names.map fun _ => 0)

/-- One round of the loop of a named slice or array type (codegen/array.go:100-131). -/
def listRound [Ext] (M : Nat → Methods) (elt : TExpr) (x : Extr) (i : Nat) (a : JV) (c : GoVal) : Out Cell := do
  match ← runExtr M x i a .nil with
  | .ret e _ => return .ret e c
  | .done (.error e) _ => return .ret (newParsingError (natStr i) e) c
  | .done (.ok val) _ =>
    let w ← convT M elt val
    return .store w

def Stop.err : Stop → Option Err
  | .fin => none
  | .ret e => some e
  | .brk e => some e

/-- `FillFromJSON` of a declared type. -/
def runFill [Ext] (M : Nat → Methods) : FillIR → JV → GoVal → Out (Option Err × GoVal)
  | .struct names strict fields, v, .struct gs =>
    match validate names strict v with
    | some e => .ok (some e, .struct gs)
    | none => do
      let (e, gs') ← runFields M v fields gs
      return (e, .struct gs')
  | .struct _ _ _, _, _ => .unsupp
  | .map star val x, v, s =>
    if v.isNull then .ok (none, s)
    else match v.getObj with
      | .error c => .ok (some (.plain c), s)
      | .ok kvs => do
        let (e, m) ← mapLoop M star val (fun v => runExtr M x 0 v .nil) kvs []
        return (e, .map m)
  | .list none elt x, v, s =>
    if v.isNull then .ok (none, s)
    else match v.getArr with
      | .error c => .ok (some (.plain c), s)
      | .ok l => do
        let z ← zeroT M elt
        let (stop, _, cells) ← sliceLoop (listRound M elt x) 0 l (List.replicate l.length z)
        return (stop.err, .slice cells [])
  | .list (some n) elt x, v, s =>
    if v.isNull then .ok (none, s)
    else match v.getArr with
      | .error c => .ok (some (.plain c), s)
      | .ok l =>
        if n ≠ l.length then .ok (some (.plain (.wrongCount n l.length)), s)
        else match s with
          | .arr cells0 => do
            let (stop, _, cells) ← sliceLoop (listRound M elt x) 0 l cells0
            return (stop.err, .arr cells)
          | _ => .unsupp
  | .bytes len, v, s => bytesFill len v s
  | .transit t x, v, s => do
    match ← runExtr M x 0 v s with
    | .ret e s' => return (some e, s')
    | .done (.error e) s' => return (some e, s')
    | .done (.ok val) _ =>
      let w ← convT M t val
      return (none, w)

end VJ
