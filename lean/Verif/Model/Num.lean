import Verif.Model.Basic

/-!
# Decimal integers: printing (strconv.AppendInt/AppendUint as used by jwriter.Int64 and
jwriter.Uint64) and parsing (fastfloat.ParseInt64/ParseUint64, strconv.Itoa).
-/

namespace VJ

/-- the character of a decimal digit -/
def digitChar (d : Nat) : Char := Char.ofNat (48 + d)

def isDigit (c : Char) : Bool := 48 ≤ c.toNat && c.toNat ≤ 57

def digitVal (c : Char) : Nat := c.toNat - 48

/-- decimal digits, most significant first; `fuel` is any number above the value -/
def natStrAux : Nat → Nat → Str
  | 0, _ => []
  | fuel + 1, n => if n < 10 then [digitChar n] else natStrAux fuel (n / 10) ++ [digitChar (n % 10)]

/-- `strconv.AppendUint(nil, n, 10)` -/
def natStr (n : Nat) : Str := natStrAux (n + 1) n

/-- `strconv.AppendInt(nil, i, 10)`, also `strconv.Itoa` -/
def intStr : Int → Str
  | .ofNat n => natStr n
  | .negSucc n => '-' :: natStr (n + 1)

/-- digits to number, left to right, `none` on a non-digit -/
def parseDigits : Nat → Str → Option Nat
  | acc, [] => some acc
  | acc, c :: cs => if isDigit c then parseDigits (acc * 10 + digitVal c) cs else none

/-- `fastfloat.ParseUint64`: one or more digits and nothing else (the 64-bit limit is
applied by the caller) -/
def parseNat : Str → Option Nat
  | [] => none
  | cs => parseDigits 0 cs

/-- `fastfloat.ParseInt64`: optional minus, then digits (the 64-bit limit is applied by
the caller) -/
def parseInt : Str → Option Int
  | '-' :: cs => (parseNat cs).map fun (n : Nat) => -(n : Int)
  | cs => (parseNat cs).map fun (n : Nat) => (n : Int)

end VJ
