import Verif.Spec.Decode

/-!
# What the text of a time says

The calendar, by counting days; and the texts a time field without a layout tag takes.
-/

namespace VJ
namespace TimeText

/-! ## The calendar -/

/-- A date of the calendar. -/
structure Date where
  year : Int
  month : Nat
  day : Nat
deriving DecidableEq, Repr

/-- Every fourth year is a leap year, except for three centuries out of four. -/
def LeapYear (y : Int) : Prop := (4 ∣ y ∧ ¬ 100 ∣ y) ∨ 400 ∣ y

instance (y : Int) : Decidable (LeapYear y) := by unfold LeapYear; infer_instance

/-- Thirty days has September, … -/
def monthLength (y : Int) (m : Nat) : Nat :=
  if m ∈ [4, 6, 9, 11] then 30
  else if m = 2 then (if LeapYear y then 29 else 28)
  else 31

/-- The date is in the calendar. -/
def Date.Real (d : Date) : Prop := 1 ≤ d.month ∧ d.month ≤ 12 ∧ 1 ≤ d.day ∧ d.day ≤ monthLength d.year d.month

instance (d : Date) : Decidable d.Real := by unfold Date.Real; infer_instance

/-- The second date is the day after the first. -/
inductive NextDay : Date → Date → Prop
  | day {y : Int} {m d : Nat} (h : d < monthLength y m) : NextDay ⟨y, m, d⟩ ⟨y, m, d + 1⟩
  | month {y : Int} {m : Nat} (h : m < 12) : NextDay ⟨y, m, monthLength y m⟩ ⟨y, m + 1, 1⟩
  | year {y : Int} : NextDay ⟨y, 12, 31⟩ ⟨y + 1, 1, 1⟩

/-- The date is `n` days after 1 January of the year 1 (before it, if `n` is negative). -/
inductive DayIs : Int → Date → Prop
  | start : DayIs 0 ⟨1, 1, 1⟩
  | next {n : Int} {a b : Date} (h : DayIs n a) (hn : NextDay a b) : DayIs (n + 1) b
  | prev {n : Int} {a b : Date} (h : DayIs n b) (ha : a.Real) (hn : NextDay a b) : DayIs (n - 1) a

/-! ## Numbers -/

/-- The text is made of digits, and is the number `n`. -/
inductive Digits : Str → Nat → Prop
  | nil : Digits [] 0
  | snoc {s : Str} {n : Nat} {c : Char} {k : Nat} (h : Digits s n) (hk : k < 10) (hc : c = Char.ofNat (48 + k)) :
      Digits (s ++ [c]) (10 * n + k)

/-- `w` digits, the number `n` -/
def Wide (w : Nat) (s : Str) (n : Nat) : Prop := s.length = w ∧ Digits s n

/-! ## Texts of times -/

/-- The fraction of a second in nanoseconds; digits beyond the ninth do not count. -/
inductive Fraction : Str → Nat → Prop
  | none : Fraction [] 0
  | some {c : Char} {s : Str} {n : Nat} (hc : c = '.' ∨ c = ',') (hs : s ≠ []) (h : Digits s n) :
      Fraction (c :: s) (n * 10 ^ 9 / 10 ^ s.length)

/-- The offset from UTC in seconds. -/
inductive Zone : Str → Int → Prop
  | utc : Zone ['Z'] 0
  | east {a b : Str} {h m : Nat} (ha : Wide 2 a h) (hb : Wide 2 b m) (hh : h ≤ 24) (hm : m ≤ 60) :
      Zone ('+' :: a ++ ':' :: b) (3600 * h + 60 * m)
  | west {a b : Str} {h m : Nat} (ha : Wide 2 a h) (hb : Wide 2 b m) (hh : h ≤ 24) (hm : m ≤ 60) :
      Zone ('-' :: a ++ ':' :: b) (-(3600 * h + 60 * m))

/-- The date and what separates it from the clock: `2006-01-02T`, `2006-01-02 ` or
`02.01.2006 `, with any number of spaces. -/
inductive DatePart : Str → Date → Prop
  | iso {a b c : Str} {y m d : Nat} (ha : Wide 4 a y) (hb : Wide 2 b m) (hc : Wide 2 c d) :
      DatePart (a ++ '-' :: b ++ '-' :: c ++ ['T']) ⟨y, m, d⟩
  | spaced {a b c : Str} {y m d k : Nat} (ha : Wide 4 a y) (hb : Wide 2 b m) (hc : Wide 2 c d) :
      DatePart (a ++ '-' :: b ++ '-' :: c ++ ' ' :: List.replicate k ' ') ⟨y, m, d⟩
  | dotted {a b c : Str} {y m d k : Nat} (ha : Wide 4 a y) (hb : Wide 2 b m) (hc : Wide 2 c d) :
      DatePart (c ++ '.' :: b ++ '.' :: a ++ ' ' :: List.replicate k ' ') ⟨y, m, d⟩

/-- The clock, in seconds: hours of one or two digits, minutes, seconds. -/
inductive ClockPart : Str → Nat → Prop
  | mk {a b c : Str} {h m s : Nat} (ha : Wide 1 a h ∨ Wide 2 a h) (hb : Wide 2 b m) (hc : Wide 2 c s)
      (hh : h < 24) (hm : m < 60) (hs : s < 60) : ClockPart (a ++ ':' :: b ++ ':' :: c) (3600 * h + 60 * m + s)

/-- The text names the instant and offset `t`: a date of the calendar, a clock, perhaps a
fraction, and a zone. -/
inductive Names : Str → Time → Prop
  | mk {d c f z : Str} {date : Date} {day off : Int} {sec nano : Nat}
      (hd : DatePart d date) (hr : date.Real) (hday : DayIs day date)
      (hc : ClockPart c sec) (hf : Fraction f nano) (hz : Zone z off) :
      Names (d ++ c ++ f ++ z) ⟨(day * 86400 + sec - off) * 1000000000 + nano, off⟩

end TimeText
end VJ
