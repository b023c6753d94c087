import Verif.Model.Num

/-!
# Times as text

`time.Parse` and `Time.AppendFormat` of Go's standard library, for the layouts made of
literal text, `2006`, `01`, `02`, `15`, `04`, `05`, `.999999999` and `Z07:00`.  The four
layouts of `parseDateTime` (static/tpl/valyjson_utils.go.tpl:54-67) and the one generated
encoders use (codegen/names/const.go:59) are of this kind.  The library is not part of the
repository; this is its documented behaviour (go1.20, `time/format.go`, `time/time.go`).
Elsewhere in the model the two functions are parameters (`Ext.parseTime`, `Ext.fmtTime`);
`Spec/TimeText` says what it means that they are these.
-/

namespace VJ
namespace TimeText

/-! ## The calendar -/

/-- `isLeap` (time.go). -/
def isLeap (y : Int) : Bool := y % 4 == 0 && (y % 100 != 0 || y % 400 == 0)

/-- `daysBefore` (time.go): the days of the year before its `m`-th month, in a common year. -/
def daysBefore : Nat → Int
  | 1 => 0 | 2 => 31 | 3 => 59 | 4 => 90 | 5 => 120 | 6 => 151 | 7 => 181 | 8 => 212 | 9 => 243
  | 10 => 273 | 11 => 304 | _ => 334

/-- the same, for common years and leap years -/
def monthStart (leap : Bool) (m : Nat) : Int :=
  daysBefore m + if leap && decide (2 < m) then 1 else 0

/-- `daysIn` (time.go). -/
def daysIn (leap : Bool) (m : Nat) : Int :=
  match m with
  | 2 => if leap then 29 else 28
  | 4 | 6 | 9 | 11 => 30
  | _ => 31

/-- The days from 1 January of the year 1 to a date (`Date` and `daysSinceEpoch` in time.go).
Simplification: integers without a bound. -/
def dayNumber (y : Int) (m : Nat) (d : Int) : Int :=
  365 * (y - 1) + (y - 1) / 4 - (y - 1) / 100 + (y - 1) / 400 + monthStart (isLeap y) m + (d - 1)

/-- The year of a day and the number of the day in it (`absDate` in time.go): cycles of 400,
100, 4 and one year are cut off. -/
def yearDay (n : Int) : Int × Int :=
  let a := n / 146097
  let r := n % 146097
  let c := if r / 36524 ≥ 4 then 3 else r / 36524
  let r := r - 36524 * c
  let q := r / 1461
  let r := r - 1461 * q
  let k := if r / 365 ≥ 4 then 3 else r / 365
  (400 * a + 100 * c + 4 * q + k + 1, r - 365 * k)

/-- The month of a day of the year: the last one that has begun. -/
def monthOf (leap : Bool) (yd : Int) : Nat :=
  (([12, 11, 10, 9, 8, 7, 6, 5, 4, 3, 2] : List Nat).find? fun m => decide (monthStart leap m ≤ yd)).getD 1

/-- `Time.Date` (time.go): year, month and day. -/
def dateOf (n : Int) : Int × Nat × Int :=
  let (y, yd) := yearDay n
  let m := monthOf (isLeap y) yd
  (y, m, yd - monthStart (isLeap y) m + 1)

/-! ## Layouts -/

/-- What a layout is made of. -/
inductive Chunk where
  | lit (c : Char)
  | year | month | day | hour | minute | second | frac | zone
deriving DecidableEq, Repr

/-- `nextStdChunk` (format.go), applied until the end.  `none`: the layout has other elements,
or may have; such layouts are outside the model. -/
def chunks : Str → Option (List Chunk)
  | [] => some []
  | '2' :: '0' :: '0' :: '6' :: l => (chunks l).map (.year :: ·)
  | '0' :: '1' :: l => (chunks l).map (.month :: ·)
  | '0' :: '2' :: l => (chunks l).map (.day :: ·)
  | '1' :: '5' :: l => (chunks l).map (.hour :: ·)
  | '0' :: '4' :: l => (chunks l).map (.minute :: ·)
  | '0' :: '5' :: l => (chunks l).map (.second :: ·)
  | '.' :: '9' :: '9' :: '9' :: '9' :: '9' :: '9' :: '9' :: '9' :: '9' :: l =>
    if (l.head?.map isDigit).getD false then none else (chunks l).map (.frac :: ·)
  | 'Z' :: '0' :: '7' :: ':' :: '0' :: '0' :: l =>
    if l.head? = some ':' then none else (chunks l).map (.zone :: ·)
  | '-' :: l => if l.head? = some '0' ∧ (l.drop 1).head? = some '7' then none else (chunks l).map (.lit '-' :: ·)
  | '.' :: l =>
    if l.head? = some '9' ∨ (l.head? = some '0' ∧ (l.drop 1).head? ∉ [some '1', some '2', some '4', some '5']) then none
    else (chunks l).map (.lit '.' :: ·)
  | ' ' :: ' ' :: _ => none
  | c :: l => if isDigit c ∨ c ∈ ['J', 'M', 'P', 'p', 'Z', '_', ','] then none else (chunks l).map (.lit c :: ·)

/-! ## Reading -/

/-- What has been read so far.  Initially: month and day not given, no zone. -/
structure Fields where
  year : Int := 0
  month : Nat := 1
  day : Nat := 1
  hour : Nat := 0
  minute : Nat := 0
  second : Nat := 0
  nano : Nat := 0
  off : Int := 0
deriving DecidableEq, Repr

/-- the value of a digit -/
def digitVal (c : Char) : Nat := c.toNat - 48

/-- the number written by digits -/
def digitsVal (s : Str) : Nat := s.foldl (fun n c => 10 * n + digitVal c) 0

/-- `getnum` (format.go): one or two digits; exactly two if `fixed`. -/
def getnum (fixed : Bool) : Str → Option (Nat × Str)
  | a :: b :: s =>
    if isDigit a then
      if isDigit b then some (10 * digitVal a + digitVal b, s)
      else if fixed then none else some (digitVal a, b :: s)
    else none
  | [a] => if isDigit a && !fixed then some (digitVal a, []) else none
  | [] => none

/-- `cutspace` (format.go). -/
def cutSpace (s : Str) : Str := s.dropWhile (· == ' ')

/-- `commaOrPeriod` (format.go). -/
def isPoint (c : Char) : Bool := c == '.' || c == ','

/-- `parseNanoseconds` (format.go) on the digits after the point: nine of them count. -/
def nanos (ds : Str) : Nat := digitsVal (ds.take 9) * 10 ^ (9 - (ds.take 9).length)

/-- A fraction of a second, when there is one. -/
def takeFrac (s : Str) : Option Nat × Str :=
  match s with
  | p :: d :: r =>
    if isPoint p && isDigit d then (some (nanos ((d :: r).takeWhile isDigit)), (d :: r).dropWhile isDigit)
    else (none, s)
  | _ => (none, s)

/-- A zone by `Z07:00` (the case `stdISO8601ColonTZ` of `parse`). -/
def takeZone : Str → Option (Int × Str)
  | 'Z' :: s => some (0, s)
  | g :: a :: b :: ':' :: c :: d :: s =>
    match getnum true [a, b], getnum true [c, d] with
    | some (h, _), some (m, _) =>
      if 24 < h ∨ 60 < m then none
      else if g = '+' then some (((60 * h + m) * 60 : Nat), s)
      else if g = '-' then some (-((60 * h + m) * 60 : Nat), s)
      else none
    | _, _ => none
  | _ => none

/-- the first element of a layout that is not a literal character (`nextStdChunk`) -/
def nextStd : List Chunk → Option Chunk
  | [] => none
  | .lit _ :: l => nextStd l
  | c :: _ => some c

/-- The loop of `parse` (format.go).  A space of the layout takes all spaces there are; a
fraction after the seconds is read even if the layout has none; not if the next element is one,
even behind other characters. -/
def parseLoop : List Chunk → Str → Fields → Option Fields
  | [], [], f => some f
  | [], _ :: _, _ => none
  | .lit c :: l, s, f =>
    if c = ' ' then
      match s with
      | [] => parseLoop l [] f
      | x :: s => if x = ' ' then parseLoop l (cutSpace s) f else none
    else
      match s with
      | [] => none
      | x :: s => if x = c then parseLoop l s f else none
  | .year :: l, a :: b :: c :: d :: s, f =>
    if isDigit a && isDigit b && isDigit c && isDigit d then parseLoop l s { f with year := digitsVal [a, b, c, d] } else none
  | .year :: _, _, _ => none
  | .month :: l, s, f =>
    match getnum true s with
    | some (n, s) => if n = 0 ∨ 12 < n then none else parseLoop l s { f with month := n }
    | none => none
  | .day :: l, s, f =>
    match getnum true s with
    | some (n, s) => parseLoop l s { f with day := n }
    | none => none
  | .hour :: l, s, f =>
    match getnum false s with
    | some (n, s) => if 24 ≤ n then none else parseLoop l s { f with hour := n }
    | none => none
  | .minute :: l, s, f =>
    match getnum true s with
    | some (n, s) => if 60 ≤ n then none else parseLoop l s { f with minute := n }
    | none => none
  | .second :: l, s, f =>
    match getnum true s with
    | some (n, s) =>
      if 60 ≤ n then none
      else if nextStd l = some .frac then parseLoop l s { f with second := n }
      else
        match takeFrac s with
        | (some k, s) => parseLoop l s { f with second := n, nano := k }
        | (none, s) => parseLoop l s { f with second := n }
    | none => none
  | .frac :: l, s, f =>
    match takeFrac s with
    | (some k, s) => parseLoop l s { f with nano := k }
    | (none, s) => parseLoop l s f
  | .zone :: l, s, f =>
    match takeZone s with
    | some (o, s) => parseLoop l s { f with off := o }
    | none => none

/-- The end of `parse`: the day must be one of the month; the instant is counted from the
clock's reading, less the offset. -/
def finish (f : Fields) : Option Time :=
  if f.day < 1 ∨ daysIn (isLeap f.year) f.month < f.day then none
  else some
    { ns := ((dayNumber f.year f.month f.day * 86400 + f.hour * 3600 + f.minute * 60 + f.second) - f.off) * 1000000000 + f.nano
      off := f.off }

/-- `time.Parse` for a layout of known elements. -/
def parse (l : List Chunk) (s : Str) : Option Time := (parseLoop l s {}).bind finish

/-! ## Writing -/

/-- the last `w` digits of `n` -/
def digitsOf : Nat → Nat → Str
  | 0, _ => []
  | w + 1, n => digitsOf w (n / 10) ++ [Char.ofNat (48 + n % 10)]

/-- `appendInt` (format.go): at least `w` digits, with a sign if negative. -/
def appendInt (x : Int) (w : Nat) : Str :=
  let n := x.natAbs
  (if x < 0 then ['-'] else []) ++ if n < 10 ^ w then digitsOf w n else natStr n

/-- `appendNano` (format.go) for `.999999999`: trailing zeros are cut off. -/
def appendNano (n : Nat) : Str :=
  if n = 0 then [] else '.' :: ((digitsOf 9 n).reverse.dropWhile (· == '0')).reverse

/-- The zone in the form `Z07:00` (the case `stdISO8601ColonTZ` of `appendFormat`): whole
minutes, towards zero. -/
def appendZone (off : Int) : Str :=
  if off = 0 then ['Z']
  else
    let z := off.tdiv 60
    (if z < 0 then '-' else '+') :: (appendInt (z.natAbs / 60 : Nat) 2 ++ ':' :: appendInt (z.natAbs % 60 : Nat) 2)

/-- One element of `appendFormat` (format.go). -/
def Chunk.text (t : Time) : Chunk → Str :=
  let abs := t.ns + t.off * 1000000000
  let date := dateOf (abs / 86400000000000)
  let clock := (abs % 86400000000000) / 1000000000
  fun
  | .lit c => [c]
  | .year => appendInt date.1 4
  | .month => appendInt date.2.1 2
  | .day => appendInt date.2.2 2
  | .hour => appendInt (clock / 3600) 2
  | .minute => appendInt (clock % 3600 / 60) 2
  | .second => appendInt (clock % 60) 2
  | .frac => appendNano (abs % 1000000000).toNat
  | .zone => appendZone t.off

/-- `Time.AppendFormat` for a layout of known elements. -/
def format (l : List Chunk) (t : Time) : Str := l.flatMap (Chunk.text t)

/-- the chunks of RFC3339Nano -/
def nanoChunks : List Chunk :=
  [.year, .lit '-', .month, .lit '-', .day, .lit 'T', .hour, .lit ':', .minute, .lit ':', .second, .frac, .zone]

/-- `Time.MarshalText` (time.go, go1.20): the layout RFC3339Nano, with a year of four digits
and an offset of less than a day. -/
def marshalText (t : Time) : Option Str :=
  let s := format nanoChunks t
  if s[4]? ≠ some '-' then none
  else if s.getLast? = some 'Z' then some s
  else
    let z := s.drop (s.length - 6)
    if 24 ≤ digitsVal ((z.drop 1).take 2) ∨ (z.head?.map isDigit).getD false then none else some s

/-- The parameters of the rest of the model are these functions. -/
structure GoTimes [Ext] : Prop where
  parse : ∀ {layout : Str} {l : List Chunk} (s : Str), chunks layout = some l → Ext.parseTime layout s = parse l s
  format : ∀ {layout : Str} {l : List Chunk} (t : Time), chunks layout = some l → Ext.fmtTime layout t = format l t
  text : ∀ t : Time, Ext.timeText t = marshalText t

end TimeText
end VJ
