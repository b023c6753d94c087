import Verif.Model.Codec

/-!
# Go literals: numbers and interpreted strings

The Go compiler reads the text of default and layout tags as source, and
`reflect.StructTag.Lookup` reads the values in a tag with `strconv.Unquote`.
-/

namespace VJ

/-- Digits of a Go integer literal in base `b` (Go specification, integer literals). -/
def baseDigits (b acc : Nat) : Str → Option Nat
  | [] => some acc
  | c :: cs =>
    match hexVal c with
    | some d => if d < b then baseDigits b (acc * b + d) cs else none
    | none => none

/-- one digit or more -/
def baseNat (b : Nat) (s : Str) : Option Nat := if s = [] then none else baseDigits b 0 s

/-- The character a one-letter escape of an interpreted string stands for. -/
def simpleEscape : Char → Option Char
  | 'a' => some (Char.ofNat 7)
  | 'b' => some (Char.ofNat 8)
  | 'f' => some (Char.ofNat 12)
  | 'n' => some '\n'
  | 'r' => some '\r'
  | 't' => some '\t'
  | 'v' => some (Char.ofNat 11)
  | '\\' => some '\\'
  | '"' => some '"'
  | _ => none

/-- A character given by its number in `len` digits of base `b`; numbers above `max` and
those that are no code point (surrogates) are malformed. -/
def escNum (b len max : Nat) (s : Str) : Option Char :=
  if (s.take len).length = len then
    match baseNat b (s.take len) with
    | some n => if n ≤ max ∧ n.isValidChar then some (Char.ofNat n) else none
    | none => none
  else none

/-- What may follow a backslash in an interpreted string (Go specification, rune literals;
`strconv.UnquoteChar`): the character and the length of the escape.  Simplification: `\x` and
octal escapes above 7f stand for bytes that are no characters; they count as malformed. -/
def escapeAt : Str → Option (Char × Nat)
  | [] => none
  | e :: r =>
    match simpleEscape e with
    | some c => some (c, 1)
    | none =>
      if e = 'x' then (escNum 16 2 0x7f r).map (·, 3)
      else if e = 'u' then (escNum 16 4 0x10ffff r).map (·, 5)
      else if e = 'U' then (escNum 16 8 0x10ffff r).map (·, 9)
      else (escNum 8 3 0x7f (e :: r)).map (·, 3)

/-- `strconv.Unquote` on the text between two double quotes, after skipping `n` characters. -/
def unquoteFrom : Nat → Str → Option Str
  | _, [] => some []
  | n + 1, _ :: r => unquoteFrom n r
  | 0, c :: r =>
    if c = '\\' then
      match escapeAt r with
      | some (d, n) => (unquoteFrom n r).map (d :: ·)
      | none => none
    else if c = '\n' ∨ c = '"' then none
    else (unquoteFrom 0 r).map (c :: ·)

/-- `strconv.Unquote` on the text between two double quotes. -/
def unquote (s : Str) : Option Str := unquoteFrom 0 s

/-- `strings.Replace(val, "\"", "\\\"", -1)` (helpers/asthelpers.go:52,
field/extractors.go:327) -/
def escapeQuotes : Str → Str
  | [] => []
  | c :: s => if c = '"' then '\\' :: '"' :: escapeQuotes s else c :: escapeQuotes s

/-- The value the Go compiler gives to the text between double quotes, after
`escapeQuotes`.  NUL and the byte order mark are not allowed in Go source.  Simplification: a
text with a backslash before a quote ends the literal early, and what follows would be
source code; this counts as not valid Go. -/
def literalText (s : Str) : Option Str :=
  if Char.ofNat 0 ∈ s ∨ Char.ofNat 0xfeff ∈ s then none else unquote (escapeQuotes s)

end VJ
