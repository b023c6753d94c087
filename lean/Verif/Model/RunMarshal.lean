import Verif.Model.GenMarshal
import Verif.Model.RunFill

/-!
# Meaning of the emitted encoding code, `IsZero` and `Reset`
-/

namespace VJ

/-! ## Encoding

Functions return the error the emitted function returns (if it returns here) and the
writer. -/

/-- `fmt.Errorf("can't marshal <label>: %w", err)`: the text is reduced to its parameters
(Verif/Model/ErrorText.lean has the text). -/
def EErr.wrap (label : ECtx) (e : EErr) : EErr := ⟨label :: e.ctx, e.code⟩

def EErr.wrap? (label : ECtx) : Option EErr → Option EErr
  | none => none
  | some e => some (e.wrap label)

/-- `result.RawString("true")` / `result.RawString("false")` -/
def boolText (b : Bool) : Str := if b then str "true" else str "false"

/-- text of a time written by `writeTime` (valyjson_utils.go.tpl:84-90): quoted, not escaped -/
def timeQuoted [Ext] (layout : Str) (t : Time) : Str := '"' :: (Ext.fmtTime layout t ++ ['"'])

/-- Writing the elements of a list separated by commas; `sep`: a comma is due first. -/
def writeElems (f : Nat → GoVal → W → Out (Option EErr × W)) :
    Nat → Bool → List GoVal → W → Out (Option EErr × W)
  | _, _, [], w => .ok (none, w)
  | i, sep, v :: vs, w => do
    let (e, w) ← f i v (if sep then w.raw [','] else w)
    match e with
    | some e => return (some e, w)
    | none => writeElems f (i + 1) true vs w

/-- Writing the members of a map in iteration order (field/marshalers.go:419-431). -/
def writeMembers (f : Str → GoVal → W → Out (Option EErr × W)) :
    Bool → List (Str × GoVal) → W → Out (Option EErr × W)
  | _, [], w => .ok (none, w)
  | sep, (k, v) :: rest, w => do
    let (e, w) ← f k v (((if sep then w.raw [','] else w).string k).raw [':'])
    match e with
    | some e => return (some e, w)
    | none => writeMembers f true rest w

/-- The statements of an element writer; `label` is the text wrapped around an error. -/
def runVExt [Ext] (M : Nat → Methods) (label : ECtx) : VExt → GoVal → W → Out (Option EErr × W)
  | .int, .int i, w => .ok (none, w.raw (intStr i))
  | .float, .float f, w => .ok (none, w.raw (Ext.fmtFloat f))
  | .bool, .bool b, w => .ok (none, w.raw (boolText b))
  | .str, .str s, w => .ok (none, w.string s)
  | .time, .time t, w => .ok (none, w.raw (timeQuoted (str "2006-01-02T15:04:05.999999999Z07:00") t))
  | .call n, v, w => do
    let (e, w) ← (M n).marshalTo (some v) w
    return (EErr.wrap? label e, w)
  | .callPtr n, .nil, w => do
    let (e, w) ← (M n).marshalTo none w
    return (EErr.wrap? label e, w)
  | .callPtr n, .ptr v, w => do
    let (e, w) ← (M n).marshalTo (some v) w
    return (EErr.wrap? label e, w)
  | .star _, .nil, w => .ok (none, w.raw (str "null"))
  | .star x, .ptr v, w => runVExt M label x v w
  | .arr _, .nil, w => .ok (none, w.raw (str "[]"))
  | .arr x, .slice elems _, w => do
    let (e, w) ← writeElems (fun _ v w => runVExt M label x v w) 0 false elems (w.raw ['['])
    match e with
    | some e => return (some e, w)
    | none => return (none, w.raw [']'])
  | .arr x, .arr elems, w => do
    let (e, w) ← writeElems (fun _ v w => runVExt M label x v w) 0 false elems (w.raw ['['])
    match e with
    | some e => return (some e, w)
    | none => return (none, w.raw [']'])
  | _, _, _ => .unsupp

/-- follow `d` pointers; a nil one on the way panics -/
def deref : Nat → GoVal → Out GoVal
  | 0, v => .ok v
  | d + 1, .ptr v => deref d v
  | _ + 1, .nil => .panic
  | _ + 1, _ => .unsupp

/-- label of the error wrapped around an element of a list -/
def itemLabel (name : Str) (i : Nat) : ECtx := .item name i
/-- label of the error wrapped around a member of a map -/
def memberLabel (name key : Str) : ECtx := .member name key

/-- `[`, elements, `]` -/
def writeList [Ext] (M : Nat → Methods) (name : Str) (x : VExt) (elems : List GoVal) (w : W) :
    Out (Option EErr × W) := do
  let (e, w) ← writeElems (fun i v w => runVExt M (itemLabel name i) x v w) 0 false elems (w.raw ['['])
  match e with
  | some e => return (some e, w)
  | none => return (none, w.raw [']'])

/-- `{`, members, `}` -/
def writeMap [Ext] (M : Nat → Methods) (name : Str) (x : VExt) (kvs : List (Str × GoVal)) (w : W) :
    Out (Option EErr × W) := do
  let (e, w) ← writeMembers (fun k v w => runVExt M (memberLabel name k) x v w) false kvs (w.raw ['{'])
  match e with
  | some e => return (some e, w)
  | none => return (none, w.raw ['}'])

/-- `"name":` -/
def keyText (name : Str) : Str := '"' :: (name ++ ['"', ':'])

/-- `MarshalJSON` (codegen/codegen.go:73-99) in terms of `MarshalTo`. -/
def marshalJSON (m : Methods) (recv : Option GoVal) : Out (Except EErr Str) := do
  let (e, w) ← m.marshalTo recv W.empty
  match e with
  | some e => return .error e
  | none => return w.build

/-- The `Block` of a field. -/
def runBody [Ext] (M : Nat → Methods) (name : Str) (b : Body) (v : GoVal) (w : W) : Out (Option EErr × W) :=
  match b with
  | .prim pw d => do
    let v ← deref d v
    match pw, v with
    | .int, .int i => return (none, (w.raw (keyText name)).raw (intStr i))
    | .float, .float f => return (none, (w.raw (keyText name)).raw (Ext.fmtFloat f))
    | .str, .str s => return (none, (w.raw (keyText name)).string s)
    | _, _ => .unsupp
  | .boolTrue => .ok (none, w.raw (keyText name ++ str "true"))
  | .refBool d => do
    match ← deref d v with
    | .bool b => return (none, w.raw (keyText name ++ boolText b))
    | _ => .unsupp
  | .time layout d => do
    match ← deref d v with
    | .time t => return (none, (w.raw (keyText name)).raw (timeQuoted layout t))
    | _ => .unsupp
  | .uuid star => do
    match ← deref (if star then 1 else 0) v with
    | .uuid b => return (none, w.raw (keyText name ++ '"' :: (uuidText b ++ ['"'])))
    | _ => .unsupp
  | .struct n star => do
    let v ← deref (if star then 1 else 0) v
    let (e, w) ← (M n).marshalTo (some v) (w.raw (keyText name))
    return (EErr.wrap? (.attr name) e, w)
  | .inline n => do
    let r ← marshalJSON (M n) (some v)
    let (data, e) := unpackObject r
    return (none, w.rawData data e)
  | .map x =>
    match v with
    | .map kvs => writeMap M name x kvs (w.raw (keyText name))
    | _ => .unsupp
  | .arr x =>
    match v with
    | .slice elems _ => writeList M name x elems (w.raw (keyText name))
    | .arr elems => writeList M name x elems (w.raw (keyText name))
    | _ => .unsupp
  | .bytes =>
    match v with
    | .bytes b => .ok (none, (w.raw (keyText name)).string (b64Encode b))
    | .barr b => .ok (none, (w.raw (keyText name)).string (b64Encode b))
    | _ => .unsupp

/-- comparison with the zero constant of the type -/
def eqZero : GoVal → Bool
  | .int i => i == 0
  | .float f => f.isZero
  | .bool b => !b
  | .str s => s == []
  | .uuid b => b == uuidNil
  | .nil => true
  | .barr b => b.all (· == 0)
  | _ => false

/-- The condition `NotZero`. -/
def runCond (M : Nat → Methods) (c : Cond) (v : GoVal) : Out Bool :=
  match c with
  | .neZero => .ok !(eqZero v)
  | .timeNotZero =>
    match v with
    | .time t => .ok !t.isZero
    | _ => .unsupp
  | .method n => do
    let z ← (M n).isZero v
    return !z
  | .notNil2 =>
    match v with
    | .nil => .ok false
    | .ptr .nil => .ok false
    | .ptr (.ptr _) => .ok true
    | _ => .unsupp

/-- `if wantComma { result.RawByte(',') }` -/
def putComma (wc : Bool) (w : W) : W := if wc then w.raw [','] else w

/-- `WriteBlock.Render` (field/marshalers.go:21-44); the flag is `wantComma`. -/
def runBlk [Ext] (M : Nat → Methods) (b : Blk) (v : GoVal) (wc : Bool) (w : W) :
    Out (Option EErr × Bool × W) :=
  match b.cond with
  | none => do
    let (e, w) ← runBody M b.name b.body v (putComma wc w)
    return (e, true, w)
  | some c => do
    let nz ← runCond M c v
    if nz then
      let (e, w) ← runBody M b.name b.body v (putComma wc w)
      return (e, true, w)
    else match b.ifZero with
      | some (t, sets) => return (none, wc || sets, (putComma wc w).raw (keyText b.name ++ t))
      | none => return (none, wc, w)

/-- The fields in order, stopping at the first error. -/
def runBlks [Ext] (M : Nat → Methods) : List Blk → List GoVal → Bool → W → Out (Option EErr × W)
  | [], [], _, w => .ok (none, w)
  | b :: bs, v :: vs, wc, w => do
    let (e, wc, w) ← runBlk M b v wc w
    match e with
    | some e => return (some e, w)
    | none => runBlks M bs vs wc w
  | _, _, _, _ => .unsupp

/-- `MarshalTo` of a declared type; `none` is a nil receiver. -/
def runMarshal [Ext] (M : Nat → Methods) (ir : MarshalIR) (recv : Option GoVal) (w : W) : Out (Option EErr × W) :=
  match ir with
  | .struct [] => .ok (none, w.raw (str "{}"))
  | .struct (b :: bs) =>
    match recv with
    | none => .ok (none, w.raw (str "null"))
    | some (.struct vs) => do
      let (e, w) ← runBlks M (b :: bs) vs false (w.raw ['{'])
      match e with
      | some e => return (some e, w)
      | none => return (w.err, w.raw ['}'])
    | _ => .unsupp
  | .map x =>
    match recv with
    | none | some .nil => .ok (none, w.raw (str "null"))
    | some (.map kvs) => do
      let (e, w) ← writeMap M [] x kvs w
      match e with
      | some e => return (some e, w)
      | none => return (w.err, w)
    | _ => .unsupp
  | .list fixed x =>
    match recv with
    | none => .ok (none, w.raw (str "null"))
    | some .nil => if fixed then .unsupp else .ok (none, w.raw (str "null"))
    | some (.slice elems _) => do
      let (e, w) ← writeList M [] x elems w
      match e with
      | some e => return (some e, w)
      | none => return (w.err, w)
    | some (.arr elems) => do
      let (e, w) ← writeList M [] x elems w
      match e with
      | some e => return (some e, w)
      | none => return (w.err, w)
    | _ => .unsupp
  | .bytes fixed =>
    match recv with
    | none => .ok (none, w.raw (str "null"))
    | some .nil => if fixed then .unsupp else .ok (none, w.raw (str "null"))
    | some (.bytes b) => .ok (none, w.string (b64Encode b))
    | some (.barr b) => .ok (none, w.string (b64Encode b))
    | _ => .unsupp
  | .prim p =>
    match recv with
    | none => .ok (none, w.raw (str "null"))
    | some v =>
      match p, v with
      | .float32, .float f | .float64, .float f => .ok (none, w.raw (Ext.fmtFloat f))
      | .bool, .bool b => .ok (none, w.raw (boolText b))
      | .string, .str s => .ok (none, w.string s)
      | _, .int i => .ok (none, w.raw (intStr i))
      | _, _ => .unsupp
  | .time =>
    match recv with
    | none => .ok (none, w.raw (str "null"))
    | some (.time t) =>
      match Ext.timeText t with
      | some s => .ok (none, w.raw ('"' :: (s ++ ['"'])))
      | none => .ok (some ⟨[], codeTimeText⟩, w)
    | _ => .unsupp
  | .uuid =>
    match recv with
    | none => .ok (none, w.raw (str "null"))
    | some (.uuid b) => .ok (none, w.raw ('"' :: (uuidText b ++ ['"'])))
    | _ => .unsupp
  | .call n =>
    match recv with
    | none => .ok (none, w.raw (str "null"))
    | some v => (M n).marshalTo (some v) w

/-! ## IsZero -/

def runZTest (M : Nat → Methods) : ZTest → GoVal → Out Bool
  | .const, v => .ok (eqZero v)
  | .time, .time t => .ok t.isZero
  | .time, _ => .unsupp
  | .method n, v => (M n).isZero v

/-- every field in order, stopping at the first that is not zero -/
def runZTests (M : Nat → Methods) : List ZTest → List GoVal → Out Bool
  | [], [] => .ok true
  | t :: ts, v :: vs => do
    let z ← runZTest M t v
    if z then runZTests M ts vs else return false
  | _, _ => .unsupp

/-- codegen/array.go:276-282: with a constant, an element that differs from it gives false;
with a method, an element *for which it holds* gives false. -/
def runAll (M : Nat → Methods) (t : ZTest) : List GoVal → Out Bool
  | [] => .ok true
  | v :: vs => do
    let z ← runZTest M t v
    match t with
    | .const => if z then runAll M t vs else return false
    | _ => if z then return false else runAll M t vs

/-- `len` of a slice or map -/
def GoVal.len : GoVal → Out Nat
  | .nil => .ok 0
  | .slice elems _ => .ok elems.length
  | .map kvs => .ok kvs.length
  | .bytes b => .ok b.length
  | _ => .unsupp

/-- `IsZero` of a declared type. -/
def runZero (M : Nat → Methods) (ir : ZeroIR) (v : GoVal) : Out Bool :=
  match ir with
  | .never => .ok false
  | .struct ts =>
    match v with
    | .struct vs => runZTests M ts vs
    | _ => .unsupp
  | .len => do
    let n ← v.len
    return n == 0
  | .all t =>
    match v with
    | .arr vs => runAll M t vs
    | _ => .unsupp
  | .allBytes =>
    match v with
    | .barr b => .ok (b.all (· == 0))
    | _ => .unsupp
  | .single t => runZTest M t v

/-! ## Reset -/

/-- apply to every element -/
def mapOut (f : GoVal → Out GoVal) : List GoVal → Out (List GoVal)
  | [] => .ok []
  | v :: vs => do
    let v' ← f v
    let vs' ← mapOut f vs
    return v' :: vs'

def mapOutKV (f : GoVal → Out GoVal) : List (Str × GoVal) → Out (List (Str × GoVal))
  | [] => .ok []
  | (k, v) :: rest => do
    let v' ← f v
    let rest' ← mapOutKV f rest
    return (k, v') :: rest'

/-- `x = x[:0]`: the elements become spare ones -/
def truncate : GoVal → GoVal
  | .slice elems spare => .slice [] (elems ++ spare)
  | .bytes _ => .bytes []
  | v => v

def runReset (M : Nat → Methods) : RIR → GoVal → Out GoVal
  | .slice _, .nil => .ok .nil
  | .slice x, .slice elems spare => do
    let elems' ← mapOut (runReset M x) elems
    return .slice [] (elems' ++ spare)
  | .bytes, .nil => .ok .nil
  | .bytes, .bytes _ => .ok (.bytes [])
  | .const t, _ => zeroT M t
  | .clearMap, .nil => .ok .nil
  | .clearMap, .map kvs => .ok (if kvs.length > 10000 then .nil else .map [])
  | .method n, v => (M n).reset v
  | _, _ => .unsupp

def runResets (M : Nat → Methods) : List RIR → List GoVal → Out (List GoVal)
  | [], [] => .ok []
  | x :: xs, v :: vs => do
    let v' ← runReset M x v
    let vs' ← runResets M xs vs
    return v' :: vs'
  | _, _ => .unsupp

/-- `Reset` of a declared type. -/
def runResetDecl (M : Nat → Methods) (ir : ResetIR) (v : GoVal) : Out GoVal :=
  match ir with
  | .struct xs =>
    match v with
    | .struct vs => do
      let vs' ← runResets M xs vs
      return .struct vs'
    | _ => .unsupp
  | .map x =>
    match v with
    | .nil => .ok .nil
    | .map kvs => do
      let kvs' ← mapOutKV (runReset M x) kvs
      return .map kvs'
    | _ => .unsupp
  | .list none => .ok (truncate v)
  | .list (some n) =>
    match v with
    | .nil => .ok .nil
    | .slice elems spare => do
      let elems' ← mapOut (M n).reset elems
      return .slice [] (elems' ++ spare)
    | _ => .unsupp
  | .const t => zeroT M t
  | .bytes => .ok (truncate v)
  | .single x => runReset M x v

end VJ
