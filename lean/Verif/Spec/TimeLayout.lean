import Verif.Spec.TimeText
import Verif.Model.TimeText

/-!
# What a layout shows of a time

A layout is a sequence of elements (`Chunk`, Model/TimeText).
-/

namespace VJ
namespace TimeText

/-- Written one after the other, the first element is read so that it takes a part of the
second: spaces, points and digits. -/
inductive Swallows : Chunk → Chunk → Prop
  | spaces : Swallows (.lit ' ') (.lit ' ')
  | spaceFraction : Swallows (.lit ' ') .frac
  | secondPoint {c : Char} (h : c = '.' ∨ c = ',') : Swallows .second (.lit c)
  | fractionPoint {c : Char} (h : c = '.' ∨ c = ',') : Swallows .frac (.lit c)
  | fractionDigit {c : Char} (h : '0' ≤ c ∧ c ≤ '9') : Swallows .frac (.lit c)
  | fractionTwice : Swallows .frac .frac
  | fractionNumber {c : Chunk} (h : c ∈ [Chunk.year, .month, .day, .hour, .minute, .second]) : Swallows .frac c

/-- No element of the layout swallows a part of the next one. -/
def Apart (l : List Chunk) : Prop := ∀ i a b, l[i]? = some a → l[i + 1]? = some b → ¬ Swallows a b

/-- The clock and calendar of the time in its own zone, in nanoseconds from the beginning of
the year 1. -/
def Time.wall (t : Time) : Int := t.ns + t.off * 1000000000

/-- The date of a time in its own zone. -/
def OnDate (t : Time) (d : Date) : Prop := DayIs (Time.wall t / 86400000000000) d

/-- What the elements of a layout say of a time: its date, clock and offset in whole minutes,
with the year 0, January, the first, midnight and UTC for what they do not say. -/
inductive Shows (l : List Chunk) (t : Time) : Time → Prop
  | mk {d : Date} {day : Int} (hd : OnDate t d)
      (hday : DayIs day ⟨if .year ∈ l then d.year else 0, if .month ∈ l then d.month else 1, if .day ∈ l then d.day else 1⟩)
      {hour minute second nano off : Int}
      (hh : hour = if .hour ∈ l then Time.wall t / 3600000000000 % 24 else 0)
      (hm : minute = if .minute ∈ l then Time.wall t / 60000000000 % 60 else 0)
      (hs : second = if .second ∈ l then Time.wall t / 1000000000 % 60 else 0)
      (hn : nano = if .frac ∈ l then Time.wall t % 1000000000 else 0)
      (ho : off = if .zone ∈ l then t.off.tdiv 60 * 60 else 0) :
      Shows l t ⟨(day * 86400 + hour * 3600 + minute * 60 + second - off) * 1000000000 + nano, off⟩

/-- The layout has room for the time: a year of four digits and an offset of less than 25
hours. -/
def Room (l : List Chunk) (t : Time) : Prop :=
  (.year ∈ l → ∀ d, OnDate t d → 0 ≤ d.year ∧ d.year ≤ 9999) ∧ (.zone ∈ l → -90000 < t.off ∧ t.off < 90000)

/-- The year has four digits and the offset is less than 25 hours. -/
def Showable (t : Time) : Prop := (∀ d, OnDate t d → 0 ≤ d.year ∧ d.year ≤ 9999) ∧ -90000 < t.off ∧ t.off < 90000

end TimeText
end VJ
