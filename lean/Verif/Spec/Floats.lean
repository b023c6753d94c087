import Verif.Model.Floats
import Verif.Spec.JsonText
import Mathlib.Data.Rat.Cast.Order
import Mathlib.Algebra.Order.Field.Basic

/-!
# Floats: the specification

The rational number a text denotes, the rational number a float stands for, and the nearest float.
-/

namespace VJ.Floats

/-- the absolute value of a finite float -/
def absVal (f : F64) : ℚ := units f / 2 ^ 1074

/-- `s` is the number with these parts: sign, digits before and after the point, exponent. -/
structure Numeral (n : Parts) (s : Str) : Prop where
  int : n.int = ['0'] ∨ (Digits n.int ∧ n.int.head? ≠ some '0')
  text : ∃ ft et : Str, s = (if n.neg then ['-'] else []) ++ n.int ++ ft ++ et ∧
    ((ft = [] ∧ n.frac = []) ∨ (ft = '.' :: n.frac ∧ Digits n.frac)) ∧
    ((et = [] ∧ n.exp = none) ∨ ∃ e sg ds, et = e :: sg ++ ds ∧ (e = 'e' ∨ e = 'E') ∧ Digits ds ∧
      ((sg = ['-'] ∧ n.exp = some (true, ds)) ∨ ((sg = [] ∨ sg = ['+']) ∧ n.exp = some (false, ds))))

/-- the number that follows the `e` -/
def Parts.exponent (n : Parts) : ℤ :=
  match n.exp with
  | none => 0
  | some (false, ds) => TimeText.digitsVal ds
  | some (true, ds) => -TimeText.digitsVal ds

/-- the absolute value of the number: all its digits, and a power of ten -/
def Parts.value (n : Parts) : ℚ := TimeText.digitsVal (n.int ++ n.frac) * 10 ^ (n.exponent - n.frac.length)

/-- No finite float is nearer to `x`; if `f` is infinite, `x` is beyond them all. -/
def Nearest (f : F64) (x : ℚ) : Prop :=
  (IsFinite f ∧ ∀ g, IsFinite g → |absVal f - x| ≤ |absVal g - x|) ∨ (magBits f = 2047 * 2 ^ 52 ∧ ∀ g, IsFinite g → absVal g < x)

/-- the sign bit -/
def Negative (f : F64) : Prop := 2 ^ 63 ≤ f.toNat

end VJ.Floats
