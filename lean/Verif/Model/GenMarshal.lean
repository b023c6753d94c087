import Verif.Model.GenCommon
import Verif.Model.Writer

/-!
# Generator: encoding code, `IsZero` and `Reset`
-/

namespace VJ

/-! ## Encoding -/

/-- Statements writing one element value `_v` (`GetValueExtractor`, field/fields.go:227-408). -/
inductive VExt where
  /-- `result.Int64(int64(_v))` and `result.Uint64(uint64(_v))` -/
  | int
  | float
  | bool
  | str
  /-- `writeTime(result, _v, time.RFC3339Nano)` -/
  | time
  /-- `err = _v.MarshalTo(result)` on a value of named type -/
  | call (n : Nat)
  /-- the same on a pointer: the method gets a nil receiver when `_v` is nil -/
  | callPtr (n : Nat)
  /-- `if _v == nil { null } else { … *_v … }` -/
  | star (x : VExt)
  /-- `[`, the elements of `_v` separated by commas, `]` -/
  | arr (x : VExt)
deriving DecidableEq, Repr

/-- field/fields.go:287-348 -/
def primVExt : Prim → Out VExt
  | .int | .int8 | .int16 | .int32 | .int64 => .ok .int
  | .uint | .uint8 | .uint16 | .uint32 | .uint64 => .ok .int
  | .float32 | .float64 => .ok .float
  | .bool => .ok .bool
  | .string => .ok .str
  | .byte | .rune => .unsupp           -- `_v.MarshalTo` on a byte: not valid Go

/-- `transitMarshaller` on `_v` whose Go type is `srcT` -/
def callExt : TExpr → Out VExt
  | .named n | .sel n => .ok (.call n)
  | .star (.named n) | .star (.sel n) => .ok (.callPtr n)
  | _ => .unsupp

/-- `GetValueExtractor` for a leaf element: `srcT` is the Go type of `_v`, `t` the type the
extractor is asked for, `decStr`: the decoration converts `_v` to `string`. -/
def leafExt (Γ : Env) (srcT t : TExpr) (decStr : Bool) : Out VExt :=
  let isStar : Bool := match t with
    | .star _ => true
    | _ => false
  let t := match t with
    | .star x => x
    | t => t
  let wrap (x : VExt) : VExt := if isStar = true then .star x else x
  if t ≠ Γ.denoted t ∧ (Γ.denoted t).isOrdinal then
    -- a conversion to `string` is added for strings (fields.go:280-285: the function that adds it
    -- reads the variable `t` after it is set to the denoted type)
    match Γ.denoted t with
    | .prim p => do
      let x ← primVExt p
      return wrap x
    | _ => .unsupp
  else match t with
    | .prim .string =>
      if isStar ∨ srcT = .prim .string ∨ decStr then .ok (wrap .str) else .unsupp
    | .prim p => do
      let x ← primVExt p
      return wrap x
    | .named _ | .sel _ | .structT => callExt srcT
    | .time => if isStar ∨ srcT ≠ .time then .unsupp else .ok .time
    | _ => .unsupp                      -- uuid: no MarshalTo; maps: the generator panics

/-- `GetValueExtractor` (field/fields.go:227-408). -/
def valueExt (Γ : Env) (srcT t : TExpr) (decStr : Bool) : Out VExt :=
  match t with
  | .slice e | .array _ e =>
    if e.isByte then .unsupp
    else match e with
      -- the inner loop again ranges over `_v`: not valid Go
      | .slice _ | .array _ _ => .unsupp
      | _ => do
        let x ← leafExt Γ e e false
        return .arr x
  | t => leafExt Γ srcT t decStr

/-- `GetDecorExpr` (field/fields.go:212-225): a conversion to `string` for a type declared
as `string`. -/
def fieldDecStr (Γ : Env) : TExpr → Bool
  | .named n => Γ.denotedIdent n (.named n) == .prim .string
  | _ => false

/-- value writers of `typeMarshal` -/
inductive PW where
  | int | float | str
deriving DecidableEq, Repr

/-- What a non-empty field writes (`WriteBlock.Block`); all of them end by setting
`wantComma`.  `d` counts pointers to follow. -/
inductive Body where
  | prim (w : PW) (d : Nat)
  /-- `"x":true` (field/marshalers.go:230-251) -/
  | boolTrue
  /-- field/marshalers.go:253-281 -/
  | refBool (d : Nat)
  /-- field/marshalers.go:55-91 -/
  | time (layout : Str) (d : Nat)
  /-- field/marshalers.go:100-143 -/
  | uuid (star : Bool)
  /-- field/marshalers.go:340-385 -/
  | struct (n : Nat) (star : Bool)
  /-- `result.Raw(unpackObject(s.F.MarshalJSON()))` (field/marshalers.go:317-332) -/
  | inline (n : Nat)
  /-- field/marshalers.go:406-455 -/
  | map (x : VExt)
  /-- field/marshalers.go:457-508 -/
  | arr (x : VExt)
  /-- field/marshalers.go:510-547, field/byteslice.go:85-112 -/
  | bytes
deriving DecidableEq, Repr

/-- `WriteBlock.NotZero` -/
inductive Cond where
  /-- `s.F != 0`, `s.F != ""`, `s.F`, `s.F != nil`, `s.F != [N]byte{}` -/
  | neZero
  /-- `!s.F.IsZero()` on a time -/
  | timeNotZero
  /-- `!s.F.IsZero()` on a named type -/
  | method (n : Nat)
  /-- `s.F != nil && *s.F != nil` -/
  | notNil2
deriving DecidableEq, Repr

/-- `WriteBlock` (field/marshalers.go:13-19) for a field named `name`.  `ifZero`: the text
written after the key when `cond` fails, and whether `wantComma` is set then. -/
structure Blk where
  name : Str
  cond : Option Cond
  body : Body
  ifZero : Option (Str × Bool)
deriving DecidableEq, Repr

/-- `typeMarshal` (field/marshal.go:51-101) for a predeclared type reached through `d`
pointers. -/
def typeMarshal (tags : Tags) (p : Prim) (d : Nat) : Out Blk := do
  let (body, zero) ← (match p with
    | .int | .int8 | .int16 | .int32 | .int64
    | .uint | .uint8 | .uint16 | .uint32 | .uint64 => .ok (.prim .int d, str "0")
    | .float32 | .float64 => .ok (.prim .float d, str "0")
    | .bool => .ok (if d = 0 then .boolTrue else .refBool d, str "false")
    | .string => .ok (.prim .str d, str "\"\"")
    | .byte | .rune => .unsupp : Out (Body × Str))          -- the generator panics
  if d = 0 then
    return ⟨tags.jsonName, some .neZero, body, if tags.omitempty then none else some (zero, true)⟩
  else
    return ⟨tags.jsonName, some (if d = 1 then .neZero else .notNil2), body,
      if tags.omitempty then none else some (str "null", false)⟩

/-- `timeMarshal` (field/marshalers.go:55-91) -/
def timeMarshal [Ext] (tags : Tags) (d : Nat) : Blk :=
  { name := tags.jsonName
    cond := some (if d = 0 then .timeNotZero else .neZero)
    body := .time (if tags.layout = [] then str "2006-01-02T15:04:05.999999999Z07:00" else tags.layout) d
    ifZero :=
      if tags.omitempty then none
      else
        let l := if tags.layout = [] then str "2006-01-02T15:04:05Z07:00" else tags.layout
        some ('"' :: (Ext.fmtTime l .zero ++ ['"']), true) }

/-- `marshalTransit` (field/fields.go:410-423) on a field of named type `n`. -/
def marshalTransit (tags : Tags) (n : Nat) (isStar : Bool) : Out Blk :=
  if tags.jsonName = [] then
    -- through a pointer `IsZero` would be called on nil: not modelled
    if isStar then .unsupp else .ok ⟨[], some (.method n), .inline n, none⟩
  else if isStar then
    .ok ⟨tags.jsonName, some .neZero, .struct n true,
      if tags.omitempty then none else some (str "null", false)⟩
  else
    .ok ⟨tags.jsonName, if tags.omitempty then some (.method n) else none, .struct n false, none⟩

/-- `MarshalStatements` (field/fields.go:145-203). -/
def genFieldMarshal [Ext] (Γ : Env) (fd : FieldDecl) : Out Blk :=
  let f := Fld.prepare Γ true fd.typ fd.tags false false
  match f.refx with
  | .prim p => typeMarshal fd.tags p (if f.isStar then 1 else 0)
  | .star x =>
    -- a named pointer type
    match x with
    | .prim p => typeMarshal fd.tags p (if f.isStar then 2 else 1)
    | .time => if f.isStar then .unsupp else .ok (timeMarshal fd.tags 1)
    | _ => .unsupp
  | .named _ => .unsupp                  -- "unknown base type": the generator panics
  | .time =>
    -- a type declared as time.Time: `writeTime(result, s.F, …)` is not valid Go
    if f.expr ≠ .time then .unsupp else .ok (timeMarshal fd.tags (if f.isStar then 1 else 0))
  | .uuid =>
    if f.expr ≠ .uuid then .unsupp
    else .ok ⟨fd.tags.jsonName, none, .uuid f.isStar, none⟩
  | .sel n => marshalTransit fd.tags n f.isStar
  | .structT =>
    match f.expr with
    | .named n | .sel n => marshalTransit fd.tags n f.isStar
    | _ => .unsupp
  | .map v =>
    if f.isStar then .unsupp
    else do
      let x ← valueExt Γ v (Γ.denoted v) (fieldDecStr Γ v)
      return ⟨fd.tags.jsonName, some .neZero, .map x, if fd.tags.omitempty then none else some (str "null", true)⟩
  | .slice e =>
    if f.isStar then .unsupp
    else if e.isByte then
      .ok ⟨fd.tags.jsonName, some .neZero, .bytes, if fd.tags.omitempty then none else some (str "null", true)⟩
    else do
      let x ← valueExt Γ e (Γ.denoted e) (fieldDecStr Γ e)
      return ⟨fd.tags.jsonName, some .neZero, .arr x, if fd.tags.omitempty then none else some (str "null", true)⟩
  | .array _ e =>
    if f.isStar then .unsupp
    else if e.isByte then
      .ok ⟨fd.tags.jsonName, some .neZero, .bytes, if fd.tags.omitempty then none else some (str "null", true)⟩
    else do
      let x ← valueExt Γ e (Γ.denoted e) (fieldDecStr Γ e)
      return ⟨fd.tags.jsonName, none, .arr x, if fd.tags.omitempty then none else some (str "null", true)⟩

/-- Encoding code of a declared type. -/
inductive MarshalIR where
  /-- codegen/struct.go:216-260 -/
  | struct (fields : List Blk)
  /-- codegen/map.go:185-255 -/
  | map (x : VExt)
  /-- codegen/array.go:174-250 -/
  | list (fixed : Bool) (x : VExt)
  /-- codegen/byteslice.go:79-108 -/
  | bytes (fixed : Bool)
  /-- codegen/transit.go:90-144 -/
  | prim (p : Prim)
  /-- codegen/transit.go:61-88 -/
  | time
  | uuid
  /-- `return (*T)(s).MarshalTo(result)` (codegen/transit.go:146-151) -/
  | call (n : Nat)
deriving DecidableEq, Repr

def genBlks [Ext] (Γ : Env) : List FieldDecl → Out (List Blk)
  | [] => .ok []
  | fd :: fds => do
    let b ← genFieldMarshal Γ fd
    let bs ← genBlks Γ fds
    return b :: bs

/-- `MarshalToFunc` of every kind of declaration. -/
def genMarshal [Ext] (Γ : Env) : Decl → Out MarshalIR
  | .struct _ fields => do
    let bs ← genBlks Γ fields
    return .struct bs
  | .alias t =>
    match t with
    | .map v => do
      -- codegen/map.go:220-226: only identifiers are resolved
      let vt := match v with
        | .named n => Γ.denotedIdent n (.named n)
        | v => v
      let x ← valueExt Γ v vt (fieldDecStr Γ v)
      return .map x
    | .slice e =>
      if e.isByte then .ok (.bytes false)
      else do
        let dt := Γ.denoted e
        -- the decoration converts to the denoted type: right for `string`, wrong for the
        -- elements of a named slice
        match e, dt with
        | .named _, .slice _ | .sel _, .slice _ | .named _, .array _ _ | .sel _, .array _ _ => .unsupp
        | _, _ =>
          let x ← valueExt Γ e dt (dt == .prim .string)
          return .list false x
    | .array _ e =>
      if e.isByte then .ok (.bytes true)
      else do
        let dt := Γ.denoted e
        match e, dt with
        | .named _, .slice _ | .sel _, .slice _ | .named _, .array _ _ | .sel _, .array _ _ => .unsupp
        | _, _ =>
          let x ← valueExt Γ e dt (dt == .prim .string)
          return .list true x
    | .time => .ok .time
    | .uuid => .ok .uuid
    | .prim .byte | .prim .rune => .unsupp
    | .prim p => .ok (.prim p)
    | .named n | .sel n => .ok (.call n)
    | .star _ | .structT => .unsupp

/-! ## IsZero -/

/-- Whether `helpers.ZeroValueOfT` (helpers/asthelpers.go:131-173) knows a zero constant;
names are followed.  `.loop` when the chain of names is longer than `fuel`. -/
def zeroKnown (Γ : Env) : Nat → TExpr → Out Bool
  | _, .prim _ => .ok true
  | 0, .named _ => .loop
  | k + 1, .named n =>
    match Γ.decl n with
    | some d => zeroKnown Γ k d.spec
    | none => .ok false
  | _, .uuid => .ok true
  | _, .star _ | _, .map _ | _, .slice _ => .ok true
  | _, .sel _ | _, .time | _, .array _ _ | _, .structT => .ok false

/-- test of one value -/
inductive ZTest where
  /-- compared with a constant -/
  | const
  /-- `IsZero` of time.Time -/
  | time
  /-- `IsZero` of a named type -/
  | method (n : Nat)
deriving DecidableEq, Repr

def zTest (Γ : Env) (k : Nat) (known : TExpr) (typ : TExpr) : Out ZTest := do
  let b ← zeroKnown Γ k known
  if b then return .const
  else match typ with
    | .time => return .time
    | .named n | .sel n => return .method n
    | _ => .unsupp

inductive ZeroIR where
  /-- `return false` (codegen/struct.go:297-301) -/
  | never
  /-- codegen/struct.go:303-331 -/
  | struct (tests : List ZTest)
  /-- `return len(s) == 0` -/
  | len
  /-- codegen/array.go:264-282, codegen/byteslice.go:122-140: `false` as soon as an element
  satisfies: differs from the constant, or — for `method` — *is zero* -/
  | all (t : ZTest)
  /-- fixed byte array -/
  | allBytes
  /-- codegen/transit.go:191-218 -/
  | single (t : ZTest)
deriving DecidableEq, Repr

def TExpr.isFixedArray : TExpr → Bool
  | .array _ _ => true
  | _ => false

def genZTests (Γ : Env) (k : Nat) : List FieldDecl → Out (List ZTest)
  | [] => .ok []
  | fd :: fds => do
    let t ← zTest Γ k (Γ.denoted fd.typ) fd.typ
    let ts ← genZTests Γ k fds
    return t :: ts

/-- `ZeroFunc` of every kind of declaration. -/
def genZero (Γ : Env) (k : Nat) : Decl → Out ZeroIR
  | .struct _ fields =>
    if fields.any (·.typ.isFixedArray) then .ok .never
    else do
      let ts ← genZTests Γ k fields
      return .struct ts
  | .alias t =>
    match t with
    | .map _ => .ok .len
    | .slice _ => .ok .len
    | .array _ e =>
      if e.isByte then .ok .allBytes
      else do
        let z ← zTest Γ k e e
        return .all z
    | .star _ | .structT => .unsupp
    | t => do
      let z ← zTest Γ k t t
      return .single z

/-! ## Reset -/

/-- Statements of `resetStmt` (codegen/codegen.go:120-214). -/
inductive RIR where
  /-- elements reset, then `x = x[:0]` -/
  | slice (x : RIR)
  /-- the same for `[]byte` -/
  | bytes
  /-- assignment of the zero value of a type -/
  | const (t : TExpr)
  /-- more than 10000 entries: nil; otherwise every key deleted -/
  | clearMap
  /-- `x.Reset()` on a named type -/
  | method (n : Nat)
deriving DecidableEq, Repr

/-- `resetStmt`; `lvl` is the number of loop variable names left (six of them in
codegen/codegen.go:121; running out panics); `k` bounds name chains. -/
def genReset (Γ : Env) (k : Nat) : Nat → TExpr → Out RIR
  | lvl, t =>
    match Γ.denoted t with
    | .slice e =>
      match lvl with
      | 0 => .unsupp
      | lvl + 1 =>
        if e.isByte then .ok .bytes
        else do
          let x ← genReset Γ k lvl e
          return .slice x
    | .array n e => .ok (.const (.array n e))
    | .uuid => .ok (.const .uuid)
    | .time => .ok (.const .time)
    | .map _ => .ok .clearMap
    | d => do
      let b ← zeroKnown Γ k d
      if b then return .const d
      else match t with
        | .named n | .sel n => return .method n
        | _ => .unsupp

inductive ResetIR where
  | struct (fields : List RIR)
  /-- named map (codegen/map.go:270-292): every value reset, keys kept -/
  | map (x : RIR)
  /-- named slice (codegen/array.go:294-312): elements of struct type reset, `*s = (*s)[:0]` -/
  | list (elem : Option Nat)
  /-- named array: `*s = T{}` -/
  | const (t : TExpr)
  | bytes
  /-- codegen/transit.go:220-232 -/
  | single (x : RIR)
deriving DecidableEq, Repr

def genResets (Γ : Env) (k : Nat) : List FieldDecl → Out (List RIR)
  | [] => .ok []
  | fd :: fds => do
    let x ← genReset Γ k 6 fd.typ
    let xs ← genResets Γ k fds
    return x :: xs

/-- `ResetFunc` of every kind of declaration. -/
def genResetDecl (Γ : Env) (k : Nat) : Decl → Out ResetIR
  | .struct _ fields => do
    let xs ← genResets Γ k fields
    return .struct xs
  | .alias t =>
    match t with
    | .map v => do
      let x ← genReset Γ k 6 v
      return .map x
    | .slice e =>
      if e.isByte then .ok .bytes
      else match Γ.denoted e with
        | .structT =>
          match e with
          | .named n | .sel n => .ok (.list (some n))
          | _ => .unsupp
        | _ => .ok (.list none)
    | .array n e => .ok (.const (.array n e))
    | .star _ | .structT => .unsupp
    | t => do
      let x ← genReset Γ k 6 t
      return .single x

end VJ
