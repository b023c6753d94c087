import Verif.Model.Types
import Verif.Model.Codec

/-!
# `jwriter.Writer` (github.com/mailru/easyjson)

Modelled from its documented behaviour, with the default flags.
-/

namespace VJ

/-- text of one character inside a JSON string, as `jwriter.Writer.String` writes it -/
def escChar (c : Char) : Str :=
  if c = '\t' then ['\\', 't']
  else if c = '\r' then ['\\', 'r']
  else if c = '\n' then ['\\', 'n']
  else if c = '\\' then ['\\', '\\']
  else if c = '"' then ['\\', '"']
  else if c.toNat < 32 ∨ c = '&' ∨ c = '<' ∨ c = '>' then
    ['\\', 'u', '0', '0', hexChar (c.toNat / 16), hexChar (c.toNat % 16)]
  else if c.toNat = 0x2028 ∨ c.toNat = 0x2029 then
    ['\\', 'u', '2', '0', '2', hexChar (c.toNat % 16)]
  else [c]

def escBody : Str → Str
  | [] => []
  | c :: cs => escChar c ++ escBody cs

/-- the JSON string literal written by `jwriter.Writer.String` -/
def jsonStr (s : Str) : Str := '"' :: (escBody s ++ ['"'])

namespace W

/-- `RawString`, `RawByte`, `Buffer.AppendBytes` -/
def raw (w : W) (s : Str) : W := { w with buf := w.buf ++ s }

/-- `Writer.String` -/
def string (w : W) (s : Str) : W := w.raw (jsonStr s)

/-- `Writer.Raw(data, err)`: the first error sticks, empty data becomes `null` -/
def rawData (w : W) (data : Str) (err : Option EErr) : W :=
  match w.err with
  | some _ => w
  | none =>
    match err with
    | some e => { w with err := some e }
    | none => if data = [] then w.raw (str "null") else w.raw data

/-- an empty writer -/
def empty : W := ⟨[], none⟩

/-- `BuildBytes` -/
def build (w : W) : Except EErr Str :=
  match w.err with
  | some e => .error e
  | none => .ok w.buf

end W

/-- error code of `fmt.Errorf("expected object")` in `unpackObject` -/
def codeExpectedObject : Nat := 0
/-- error code of a failing `time.Time.MarshalText` -/
def codeTimeText : Nat := 1

/-- `unpackObject` (valyjson_utils.go.tpl:128-140) -/
def unpackObject (r : Except EErr Str) : Str × Option EErr :=
  match r with
  | .error e => ([], some e)
  | .ok data =>
    if data.length < 2 then (data, none)
    else if data.head? ≠ some '{' ∨ data.getLast? ≠ some '}' then (data, some ⟨[], codeExpectedObject⟩)
    else ((data.drop 1).dropLast, none)

end VJ
