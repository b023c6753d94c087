import Verif.Model.Json
import Verif.Model.Types

/-!
# Messages of errors

What `Error()` returns for the errors of decoding, and what `fmt.Errorf` makes of the errors of
encoding.  Messages of other packages (fastjson, strconv, time, uuid, base64) and of
hand-written methods are a parameter.
-/

namespace VJ

/-- the characters of a literal -/
def msg (s : String) : Str := s.toList

/-- The message of a cause.  `other` gives the messages that are not written in the generator.
Models the format strings of codegen/struct.go:151 (twice) and :167 (unexpected),
codegen/field/fill.go:730 (required) and :459 (too large; the name of the data type, which
follows, is left to `other`), codegen/field/byteslice.go:24 (incomplete data),
codegen/field/extractors.go:113 (array len mismatch), codegen/array.go:80 (expected elements). -/
def Cause.text (other : Cause → Str) : Cause → Str
  | .required name => msg "required element '" ++ name ++ msg "' is missing"
  | .twice key => msg "the '" ++ key ++ msg "' field appears in the object twice"
  | .unexpected key => msg "unexpected field '" ++ key ++ msg "'"
  | .exceedsMax z => intStr z ++ msg " exceeds maximum for data type " ++ other (.exceedsMax z)
  | .incomplete => msg "incomplete data"
  | .lenMismatch => msg "array len mismatch"
  | .wrongCount want got => msg "expected " ++ natStr want ++ msg " elements, got " ++ natStr got
  | c => other c

/-- `parsingError.Error` (static/tpl/valyjson_utils.go.tpl:120-122); an error that is not a
`parsingError` has the message of its cause. -/
def Err.text (other : Cause → Str) (e : Err) : Str :=
  match e.path with
  | none => e.cause.text other
  | some p => msg "error parsing '" ++ p ++ msg "': " ++ e.cause.text other

/-! ## fmt.Errorf -/

/-- An error value, as far as its message and `errors.Unwrap` go. -/
inductive GoErr where
  /-- an error that wraps nothing -/
  | leaf (text : Str) (code : Nat)
  /-- the result of `fmt.Errorf` -/
  | made (text : Str) (wraps : Option GoErr)

/-- `Error()` -/
def GoErr.text : GoErr → Str
  | .leaf t _ => t
  | .made t _ => t

/-- `errors.Unwrap` -/
def GoErr.unwrap : GoErr → Option GoErr
  | .leaf _ _ => none
  | .made _ w => w

/-- an operand of `fmt.Errorf` in the emitted code -/
inductive FmtArg where
  | key (s : Str)
  | index (n : Nat)
  | err (e : GoErr)

/-- A format string in pieces: text to copy, and verbs.  A verb is one letter after the percent
sign.  `none`: a percent sign followed by something else (flags, a width, an operand index, the
end); these are not modelled. -/
inductive FmtPiece where
  | text (c : Char)
  | verb (c : Char)
deriving DecidableEq

/-- the loop of `(*fmt.pp).doPrintf` over the format, as far as described at `FmtPiece` -/
def fmtPieces : Str → Option (List FmtPiece)
  | [] => some []
  | '%' :: '%' :: cs => (fmtPieces cs).map (.text '%' :: ·)
  | ['%'] => none
  | '%' :: c :: cs => if c.isAlpha then (fmtPieces cs).map (.verb c :: ·) else none
  | c :: cs => (fmtPieces cs).map (.text c :: ·)

/-- The pieces and the operands give the message and the wrapped error.  `show'` renders an
operand for a verb where the result is of no interest here: `%q` of a key and the complaints
about verbs and operands that do not fit.  `%w` wraps an error, a second `%w` wraps nothing more
(Simplification: Go 1.20 would wrap both; the emitted formats have one error operand).
Operands that are left over are appended (`%!(EXTRA …)`). -/
def fmtRun (show' : Char → Option FmtArg → Str) : List FmtPiece → List FmtArg → Str × Option GoErr
  | [], as => (as.flatMap fun a => show' '!' (some a), none)
  | .text c :: ps, as => let r := fmtRun show' ps as; (c :: r.1, r.2)
  | .verb c :: ps, [] => let r := fmtRun show' ps []; (show' c none ++ r.1, r.2)
  | .verb c :: ps, a :: as =>
    let r := fmtRun show' ps as
    match c, a with
    | 'w', .err e => (e.text ++ r.1, some e)
    | 'd', .index n => (natStr n ++ r.1, r.2)
    | c, a => (show' c (some a) ++ r.1, r.2)

/-- `fmt.Errorf(format, args…)` -/
def errorf (show' : Char → Option FmtArg → Str) (format : Str) (args : List FmtArg) : Option GoErr :=
  (fmtPieces format).map fun ps => let r := fmtRun show' ps args; .made r.1 r.2

/-- The emitted `fmt.Errorf` calls: codegen/field/marshalers.go:363 (a field),
codegen/field/fields.go:194 and :183 (items and members of a field), codegen/array.go:221 and
codegen/map.go:225 (items and members in a method of a list or map type, whose name `typ` is). -/
def ECtx.errorf (show' : Char → Option FmtArg → Str) (typ : Str) (e : GoErr) : ECtx → Option GoErr
  | .attr name => VJ.errorf show' (msg "can't marshal \"" ++ name ++ msg "\" attribute: %w") [.err e]
  | .item [] i => VJ.errorf show' (msg "can't marshal \"" ++ typ ++ msg "\" value at position %d: %w") [.index i, .err e]
  | .item name i => VJ.errorf show' (msg "can't marshal \"" ++ name ++ msg "\" item at position %d: %w") [.index i, .err e]
  | .member [] key => VJ.errorf show' (msg "can't marshal \"" ++ typ ++ msg "\" attribute %q: %w") [.key key, .err e]
  | .member name key => VJ.errorf show' (msg "can't marshal \"" ++ name ++ msg "\" attribute %q: %w") [.key key, .err e]

/-- The calls on the way out, outermost first; every place comes with the name of the type whose
method makes the call. -/
def errorfAll (show' : Char → Option FmtArg → Str) : List (ECtx × Str) → GoErr → Option GoErr
  | [], e => some e
  | (c, typ) :: cs, e => (errorfAll show' cs e).bind fun inner => c.errorf show' typ inner

end VJ
