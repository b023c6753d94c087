import Verif.Model.Num

/-!
# Parsed JSON documents (github.com/valyala/fastjson `Value`)

The generated code never looks at bytes: it walks a `*fastjson.Value`.
-/

namespace VJ

/-- A parsed JSON value.  Objects keep their members in document order, duplicates
included; numbers keep their raw token (fastjson `Value` stores `s` for numbers). -/
inductive JV where
  | null
  | bool (b : Bool)
  | num (raw : Str)
  | str (s : Str)
  | arr (l : List JV)
  | obj (kvs : List (Str × JV))

/-- `fastjson.Type`. -/
inductive JT where
  | null | object | array | string | number | boolean
deriving DecidableEq, Repr

/-- `(*fastjson.Value).Type` (true and false are one type here). -/
def JV.type : JV → JT
  | .null => .null
  | .bool _ => .boolean
  | .num _ => .number
  | .str _ => .string
  | .arr _ => .array
  | .obj _ => .object

def JV.isNull : JV → Bool
  | .null => true
  | _ => false

/-- Why a decode failed; one constructor per error the emitted code can produce.  The
message text is not modelled, its parameters are. -/
inductive Cause where
  /-- fastjson: "value doesn't contain %s; it contains %s" -/
  | wrongType (want got : JT)
  /-- fastfloat: the token is not an integer/number or does not fit 64 bits -/
  | badNumber (raw : Str)
  /-- "%d exceeds maximum for data type %s" (field/fill.go:459) -/
  | exceedsMax (val : Int)
  | exceedsMaxF (val : F64)
  /-- "required element '%s' is missing" (field/fill.go:730) -/
  | required (name : Str)
  /-- "the '%s' field appears in the object twice" (codegen/struct.go:151) -/
  | twice (key : Str)
  /-- "unexpected field '%s'" (codegen/struct.go:167) -/
  | unexpected (key : Str)
  /-- "can't parse date-time from string '%s'" or an error of time.Parse -/
  | badTime (s : Str)
  | badUUID (s : Str)
  /-- base64.CorruptInputError -/
  | badBase64 (s : Str)
  /-- "incomplete data" (field/byteslice.go:24) -/
  | incomplete
  /-- "array len mismatch" (field/extractors.go:113) -/
  | lenMismatch
  /-- "expected %d elements, got %d" (codegen/array.go:80) -/
  | wrongCount (want got : Nat)
  /-- the bytes are not JSON (fastjson.Parser.ParseBytes) -/
  | notJSON
  /-- an error made by a hand-written (custom) method -/
  | user (code : Nat)
deriving DecidableEq, Repr

namespace JV

/-- `Value.Int()` / `Value.Int64()`: the token must be an integer that fits 64 bits
(`fastfloat.ParseInt64`; Go `int` is 64 bits here). -/
def getInt : JV → Except Cause Int
  | .num raw =>
    match parseInt raw with
    | some i => if -(2^63) ≤ i ∧ i < 2^63 then .ok i else .error (.badNumber raw)
    | none => .error (.badNumber raw)
  | v => .error (.wrongType .number v.type)

/-- `Value.Uint()` / `Value.Uint64()` (`fastfloat.ParseUint64`: no sign accepted). -/
def getUint : JV → Except Cause Int
  | .num raw =>
    match parseNat raw with
    | some n => if n < 2^64 then .ok (n : Int) else .error (.badNumber raw)
    | none => .error (.badNumber raw)
  | v => .error (.wrongType .number v.type)

/-- `Value.Float64()` -/
def getFloat [Ext] : JV → Except Cause F64
  | .num raw =>
    match Ext.parseFloat raw with
    | some f => .ok f
    | none => .error (.badNumber raw)
  | v => .error (.wrongType .number v.type)

/-- `Value.Bool()` -/
def getBool : JV → Except Cause Bool
  | .bool b => .ok b
  | v => .error (.wrongType .boolean v.type)

/-- `Value.StringBytes()` -/
def getStr : JV → Except Cause Str
  | .str s => .ok s
  | v => .error (.wrongType .string v.type)

/-- `Value.Array()` -/
def getArr : JV → Except Cause (List JV)
  | .arr l => .ok l
  | v => .error (.wrongType .array v.type)

/-- `Value.Object()` (the members `Object.Visit` walks, in order) -/
def getObj : JV → Except Cause (List (Str × JV))
  | .obj kvs => .ok kvs
  | v => .error (.wrongType .object v.type)

/-- `Object.Get(key)`: first member with that key. -/
def lookup (key : Str) : List (Str × JV) → Option JV
  | [] => none
  | (k, v) :: rest => if k = key then some v else lookup key rest

/-- `Value.Get(key)` with one key: member of an object, nil otherwise.  Simplification:
on an array fastjson would read the key as an index; generated code calls `Get` only
after `validate` accepted an object. -/
def get (key : Str) : JV → Option JV
  | .obj kvs => lookup key kvs
  | _ => none

end JV

/-- A decode error: a bare error, or `parsingError{path, err}`
(static/tpl/valyjson_utils.go.tpl:92-95). -/
structure Err where
  path : Option Str
  cause : Cause
deriving DecidableEq, Repr

/-- A bare error (not a `parsingError`). -/
def Err.plain (c : Cause) : Err := ⟨none, c⟩

/-- `newParsingError(objPath, err)` for a non-nil `err`
(static/tpl/valyjson_utils.go.tpl:97-118, `newParsingError` and `WrapPath`).
Simplification: a user error that itself implements `WrapPath` is not distinguished. -/
def newParsingError (p : Str) (e : Err) : Err :=
  match e.path with
  | none => ⟨some p, e.cause⟩
  | some q => ⟨some (p ++ '.' :: q), e.cause⟩

/-- `newParsingError` with its nil check (valyjson_utils.go.tpl:98-100). -/
def newParsingError? (p : Str) : Option Err → Option Err
  | none => none
  | some e => some (newParsingError p e)

end VJ
