import Verif.Model.Num
import Verif.Model.TimeText

/-!
# Floats: how numbers become texts and texts numbers

The rest of the model takes the reading and printing of floats as parameters (`Ext.parseFloat`,
`Ext.fmtFloat`).  This file models them: `fastfloat.Parse` of fastjson v1.6.4 (called by
`Value.Float64`, see `floatExtraction`, generator/codegen/field/extractors.go:215-221) and
`strconv.AppendFloat(buf, f, 'g', -1, 64)` (called by `jwriter.Writer.Float64` of easyjson v0.7.7, see
`floatMarshal`, generator/codegen/field/marshalers.go:200-227).  These sources are not in the
repository and could not be consulted; they are written down from memory of the published
versions.  Floats are the 64 bits of IEEE 754.
-/

namespace VJ.Floats
open TimeText (digitsVal)

/-! ## IEEE 754 -/

/-- the bits without the sign -/
def magBits (f : F64) : Nat := f.toNat % 2 ^ 63

/-- neither an infinity nor a NaN -/
def IsFinite (f : F64) : Prop := magBits f < 2047 * 2 ^ 52

/-- The absolute value of a finite float, in units of the smallest positive one, `2 ^ -1074`:
11 bits of exponent, 52 bits of fraction. -/
def units (f : F64) : Nat :=
  if magBits f / 2 ^ 52 = 0 then magBits f % 2 ^ 52 else (2 ^ 52 + magBits f % 2 ^ 52) * 2 ^ (magBits f / 2 ^ 52 - 1)

/-- `a / b`, to the nearest integer; to the even one if two are equally near -/
def halfEven (a b : Nat) : Nat :=
  let d := a / b
  let r := a % b
  if 2 * r < b then d else if b < 2 * r then d + 1 else if d % 2 = 0 then d else d + 1

/-- The float for `p / q`: the quotient is taken in units of `2 ^ s`, chosen so that 53 bits
remain, and rounded.  What is too large becomes infinite. -/
def ofRatio (p q : Nat) : F64 :=
  let s := Nat.log2 (p * 2 ^ 1074 / q) - 52
  UInt64.ofNat (min (s * 2 ^ 52 + halfEven (p * 2 ^ 1074) (q * 2 ^ s)) (2047 * 2 ^ 52))

/-- a float with a sign -/
def signed (neg : Bool) (f : F64) : F64 := if neg then UInt64.ofNat (f.toNat + 2 ^ 63) else f

/-- `float64(n)` -/
def conv (n : Nat) : F64 := ofRatio n 1
/-- `a / b` for positive `b` -/
def div (a b : F64) : F64 := ofRatio (units a) (units b)
/-- `a * b` -/
def mul (a b : F64) : F64 := ofRatio (units a * units b) (2 ^ 2148)

/-! ## Number texts -/

/-- a number text, taken apart -/
structure Parts where
  neg : Bool
  int : Str
  /-- the digits after the point -/
  frac : Str
  /-- the exponent: its sign, and its digits -/
  exp : Option (Bool × Str)
deriving DecidableEq, Repr

/-- the minus sign -/
def splitSign : Str → Bool × Str
  | '-' :: s => (true, s)
  | s => (false, s)

/-- the point and the digits after it, and the rest -/
def splitFrac : Str → Option (Str × Str)
  | '.' :: s => if s.takeWhile isDigit = [] then none else some (s.takeWhile isDigit, s.dropWhile isDigit)
  | s => some ([], s)

/-- the exponent, up to the end of the text -/
def expOf : Str → Option (Option (Bool × Str))
  | [] => some none
  | e :: s =>
    let m := s.head? = some '-'
    let ds := if s.head? = some '-' ∨ s.head? = some '+' then s.drop 1 else s
    if (e = 'e' ∨ e = 'E') ∧ ds ≠ [] ∧ ds.all isDigit = true then some (some (decide m, ds)) else none

/-- The parts of a text.  `none`: not a JSON number; what the functions below do with such texts is
outside the model. -/
def parts (s : Str) : Option Parts :=
  let r := (splitSign s).2
  let int := r.takeWhile isDigit
  if int = [] ∨ (int.head? = some '0' ∧ 1 < int.length) then none
  else (splitFrac (r.dropWhile isDigit)).bind fun f => (expOf f.2).map fun e => ⟨(splitSign s).1, int, f.1, e⟩

/-- `d * 10 ^ (e - k)`, to the nearest float -/
def ofDecimal (d k : Nat) : Option (Bool × Nat) → F64
  | none => ofRatio d (10 ^ k)
  | some (false, e) => ofRatio (d * 10 ^ e) (10 ^ k)
  | some (true, e) => ofRatio d (10 ^ (k + e))

/-- `strconv.ParseFloat(s, 64)`: the nearest float, or an infinity (fastfloat takes no notice of the
error in that case). -/
def exactly (n : Parts) : F64 :=
  ofDecimal (digitsVal (n.int ++ n.frac)) n.frac.length (n.exp.map fun e => (e.1, digitsVal e.2))

/-- `math.Pow10(n)` for `0 ≤ n ≤ 300` and `math.Pow10(-n)`: a product of two entries of tables, or a quotient. -/
def pow10 (minus : Bool) (n : Nat) : F64 :=
  if minus then div (ofRatio 1 (10 ^ (n / 32 * 32))) (conv (10 ^ (n % 32)))
  else mul (conv (10 ^ (n / 32 * 32))) (conv (10 ^ (n % 32)))

/-- `fastfloat.Parse`, apart from the sign.  The digits are collected in a `uint64`.  An integer part that ends after the 18th character, and
17 or more characters of integer part, point and fraction are left to `strconv`, and so are
exponents above 300. -/
def fast (n : Parts) : F64 :=
  let d := digitsVal (n.int ++ n.frac) % 2 ^ 64
  if 18 < n.neg.toNat + n.int.length then exactly n
  else if n.frac ≠ [] ∧ 17 ≤ n.int.length + 1 + n.frac.length then exactly n
  else
    let f := if n.frac = [] then conv d else div (conv d) (conv (10 ^ n.frac.length))
    match n.exp with
    | none => f
    | some (minus, e) => if 300 < digitsVal e then exactly n else mul f (pow10 minus (digitsVal e))

/-- `fastfloat.Parse` -/
def parse (s : Str) : Option F64 := (parts s).map fun n => signed n.neg (fast n)

/-! ## Printing -/

/-- The number of digits of the integer part of `p / q`, minus one; below 1 the (negative) place of the
first digit. -/
def place (p q : Nat) : Int :=
  if q ≤ p then ((natStr (p / q)).length - 1 : Nat) else
    -- the first power of ten that lifts it to 1 or more
    -(((List.range 330).find? fun k => q ≤ p * 10 ^ (k + 1)).map (· + 1) |>.getD 330 : Nat)

/-- `%e` with all digits: `d.ddde±dd` -/
def textE (ds : Str) (x : Int) : Str :=
  let e := natStr x.natAbs
  ds.take 1 ++ (if ds.length ≤ 1 then [] else '.' :: ds.drop 1) ++ ('e' :: (if x < 0 then '-' else '+') :: if e.length < 2 then '0' :: e else e)

/-- `%f` with all digits -/
def textF (ds : Str) (x : Int) : Str :=
  if x < 0 then '0' :: '.' :: (List.replicate (x.natAbs - 1) '0' ++ ds)
  else
    let n := x.toNat + 1
    if ds.length ≤ n then ds ++ List.replicate (n - ds.length) '0' else ds.take n ++ '.' :: ds.drop n

/-- The format `'g'` with the shortest precision (ftoa.go): exponents below -4 and from 6 on are written. -/
def textG (ds : Str) (x : Int) : Str := if x < -4 ∨ 6 ≤ x then textE ds x else textF ds x

/-- the digits without the zeros at the end -/
def stripZeros (ds : Str) : Str := (ds.reverse.dropWhile (· == '0')).reverse

/-- The texts with `nd` digits that are nearest to `p / q`: the rounded one, and its neighbours. -/
def candidates (p q nd : Nat) : List Str :=
  let x := place p q
  let e : Int := nd - 1 - x
  let c := if 0 ≤ e then halfEven (p * 10 ^ e.toNat) q else halfEven p (q * 10 ^ e.natAbs)
  [c, c + 1, c - 1].map fun c =>
    let ds := natStr c
    textG (stripZeros ds) (x + (ds.length - nd : Int))

/-- `strconv.AppendFloat(nil, f, 'g', -1, 64)` for a finite float: the first text, by number of digits, that
reads as the float.  (17 digits are always enough, so the last alternative is never needed.) -/
def format (f : F64) : Str :=
  let neg := decide (2 ^ 63 ≤ f.toNat)
  let u := units f
  let sign := if neg then ['-'] else []
  if u = 0 then sign ++ ['0']
  else
    sign ++ ((((List.range 17).flatMap fun nd => candidates u (2 ^ 1074) (nd + 1)).find? fun t =>
      decide ((parts t).map (fun n => (n.neg, exactly n)) = some (false, UInt64.ofNat (magBits f)))).getD (natStr (u * 5 ^ 1074) ++ str "e-1074"))

/-- The parameters of the rest of the model are these functions. -/
structure GoFloats [Ext] : Prop where
  parse : ∀ s, parts s ≠ none → Ext.parseFloat s = parse s
  format : ∀ f, IsFinite f → Ext.fmtFloat f = format f

end VJ.Floats
