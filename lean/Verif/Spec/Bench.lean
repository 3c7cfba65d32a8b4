/-
The functions of the CEC 2014 suite (Liang, Qu, Suganthan 2013), as mathematical functions of a point
of `ℝ^d`; `x i` is the coordinate usually written `x_{i+1}`.
-/
import Mathlib.Analysis.SpecialFunctions.Trigonometric.Basic
import Mathlib.Analysis.SpecialFunctions.Pow.Real

namespace Verif.Spec

open Real Finset

variable {d : ℕ}

/-- High conditioned elliptic. -/
noncomputable def elliptic (x : Fin d → ℝ) : ℝ :=
  ∑ i : Fin d, ((10 : ℝ) ^ 6) ^ (((i : ℕ) : ℝ) / ((d : ℝ) - 1)) * x i ^ 2

/-- Bent cigar. -/
noncomputable def bentCigar (x : Fin d → ℝ) : ℝ :=
  ∑ i : Fin d, (if (i : ℕ) = 0 then 1 else 10 ^ 6) * x i ^ 2

/-- Discus. -/
noncomputable def discus (x : Fin d → ℝ) : ℝ :=
  ∑ i : Fin d, (if (i : ℕ) = 0 then 10 ^ 6 else 1) * x i ^ 2

/-- Rosenbrock. -/
noncomputable def rosenbrock (x : Fin d → ℝ) : ℝ :=
  ∑ i : Fin d, if h : (i : ℕ) + 1 < d then
    100 * (x i ^ 2 - x ⟨i + 1, h⟩) ^ 2 + (x i - 1) ^ 2 else 0

/-- Ackley. -/
noncomputable def ackley (x : Fin d → ℝ) : ℝ :=
  -20 * exp (-0.2 * √ (1 / d * ∑ i, x i ^ 2)) - exp (1 / d * ∑ i, cos (2 * π * x i)) + 20 + exp 1

/-- Weierstrass, `a = 0.5`, `b = 3`, `k_max = 20`. -/
noncomputable def weierstrass (x : Fin d → ℝ) : ℝ :=
  ∑ i, (∑ k ∈ range 21, 0.5 ^ k * cos (2 * π * 3 ^ k * (x i + 0.5)))
    - d * ∑ k ∈ range 21, 0.5 ^ k * cos (2 * π * 3 ^ k * 0.5)

/-- Griewank. -/
noncomputable def griewank (x : Fin d → ℝ) : ℝ :=
  ∑ i, x i ^ 2 / 4000 - ∏ i : Fin d, cos (x i / √ (((i : ℕ) : ℝ) + 1)) + 1

/-- Rastrigin. -/
noncomputable def rastrigin (x : Fin d → ℝ) : ℝ := ∑ i, (x i ^ 2 - 10 * cos (2 * π * x i) + 10)

/-- `mod(z, 500)` for `z ≥ 0`. -/
noncomputable def mod500 (z : ℝ) : ℝ := 500 * Int.fract (z / 500)

/-- The function `g` of modified Schwefel. -/
noncomputable def schwefelG (d : ℕ) (z : ℝ) : ℝ :=
  if |z| ≤ 500 then z * sin (√ |z|)
  else if 500 < z then
    (500 - mod500 z) * sin (√ |500 - mod500 z|) - (z - 500) ^ 2 / (10000 * d)
  else
    (mod500 |z| - 500) * sin (√ |mod500 |z| - 500|) - (z + 500) ^ 2 / (10000 * d)

/-- Modified Schwefel. -/
noncomputable def modSchwefel (x : Fin d → ℝ) : ℝ :=
  418.9829 * d - ∑ i, schwefelG d (x i + 420.9687462275036)

/-- Distance to the nearest integer. -/
noncomputable def nearest (y : ℝ) : ℝ := min (Int.fract y) (1 - Int.fract y)

/-- Katsuura. -/
noncomputable def katsuura (x : Fin d → ℝ) : ℝ :=
  10 / (d : ℝ) ^ 2 * ∏ i : Fin d, (1 + (((i : ℕ) : ℝ) + 1) *
    ∑ j ∈ Icc 1 32, nearest (2 ^ j * x i) / 2 ^ j) ^ (10 / (d : ℝ) ^ (1.2 : ℝ)) - 10 / (d : ℝ) ^ 2

/-- HappyCat. -/
noncomputable def happycat (x : Fin d → ℝ) : ℝ :=
  |∑ i, x i ^ 2 - d| ^ (1 / 4 : ℝ) + (0.5 * ∑ i, x i ^ 2 + ∑ i, x i) / d + 0.5

/-- HGBat. -/
noncomputable def hgbat (x : Fin d → ℝ) : ℝ :=
  |(∑ i, x i ^ 2) ^ 2 - (∑ i, x i) ^ 2| ^ (1 / 2 : ℝ) + (0.5 * ∑ i, x i ^ 2 + ∑ i, x i) / d + 0.5

/-- Scaffer's F6. -/
noncomputable def scafferG (x y : ℝ) : ℝ :=
  0.5 + (sin (√ (x ^ 2 + y ^ 2)) ^ 2 - 0.5) / (1 + 0.001 * (x ^ 2 + y ^ 2)) ^ 2

/-- Expanded Scaffer: consecutive pairs, cyclically. -/
noncomputable def expandedScaffer (x : Fin d → ℝ) : ℝ :=
  ∑ i : Fin d, scafferG (x i) (x ⟨(i + 1) % d, Nat.mod_lt _ (Nat.zero_lt_of_lt i.2)⟩)

end Verif.Spec
