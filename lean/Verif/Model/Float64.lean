/-
The rounding of IEEE 754 double precision arithmetic (Python's and numpy's `float`): round to
nearest, ties to even, 53 bits of precision, smallest exponent -1074.  Overflow is not modelled
(results are finite numbers).
-/
import Mathlib.Data.Int.Log
import Mathlib.Algebra.Order.Floor.Ring
import Mathlib.Data.Rat.Floor
import Mathlib.Tactic.Linarith
import Mathlib.Tactic.Ring

namespace Verif

variable {K : Type} [Field K] [LinearOrder K] [IsStrictOrderedRing K] [FloorRing K]

/-- Nearest integer, ties to even. -/
def roundEven (x : K) : ℤ :=
  if x - ⌊x⌋ < 1 / 2 then ⌊x⌋
  else if 1 / 2 < x - ⌊x⌋ then ⌊x⌋ + 1
  else if ⌊x⌋ % 2 = 0 then ⌊x⌋ else ⌊x⌋ + 1

/-- The exponent of the last bit of a double close to `x > 0`. -/
def ulpExp (x : K) : ℤ := max (Int.log 2 x - 52) (-1074)

/-- The double nearest to `x ≥ 0`. -/
def roundPos (x : K) : K := (roundEven (x / 2 ^ ulpExp x) : K) * 2 ^ ulpExp x

/-- The double nearest to `x`: the result of every arithmetic operation with exact value `x`. -/
def fl64 (x : K) : K := if x < 0 then -roundPos (-x) else roundPos x

/-- The finite doubles: 53 bits of precision, smallest exponent -1074, no largest one. -/
def IsDouble (x : K) : Prop := ∃ n k : ℤ, |n| ≤ 2 ^ 53 ∧ -1074 ≤ k ∧ x = n * 2 ^ k

end Verif
