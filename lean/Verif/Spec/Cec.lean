/-
The simple problems of the CEC 2014 suite (Liang, Qu, Suganthan 2013, section 2): problem `k` with
optimum `o`, rotation `M`.  Number 15 is missing, the benchmark class has no method for it.
-/
import Verif.Spec.Bench
import Mathlib.Data.Matrix.Mul

namespace Verif.Spec

open Matrix

variable {d : ℕ}

/-- Problem `k` of the suite at `x`. -/
noncomputable def cec14 (k : ℕ) (o : Fin d → ℝ) (M : Matrix (Fin d) (Fin d) ℝ) (x : Fin d → ℝ) : ℝ :=
  match k with
  | 1 => elliptic (M *ᵥ (x - o)) + 100
  | 2 => bentCigar (M *ᵥ (x - o)) + 200
  | 3 => discus (M *ᵥ (x - o)) + 300
  | 4 => rosenbrock (M *ᵥ ((2.048 / 100 : ℝ) • (x - o)) + 1) + 400
  | 5 => ackley (M *ᵥ (x - o)) + 500
  | 6 => weierstrass (M *ᵥ ((0.5 / 100 : ℝ) • (x - o))) + 600
  | 7 => griewank (M *ᵥ ((600 / 100 : ℝ) • (x - o))) + 700
  | 8 => rastrigin ((5.12 / 100 : ℝ) • (x - o)) + 800
  | 9 => rastrigin (M *ᵥ ((5.12 / 100 : ℝ) • (x - o))) + 900
  | 10 => modSchwefel ((1000 / 100 : ℝ) • (x - o)) + 1000
  | 11 => modSchwefel (M *ᵥ ((1000 / 100 : ℝ) • (x - o))) + 1100
  | 12 => katsuura (M *ᵥ ((5 / 100 : ℝ) • (x - o))) + 1200
  | 13 => happycat (M *ᵥ ((5 / 100 : ℝ) • (x - o))) + 1300
  | 14 => hgbat (M *ᵥ ((5 / 100 : ℝ) • (x - o))) + 1400
  | 16 => expandedScaffer (M *ᵥ (x - o) + 1) + 1600
  | _ => 0

end Verif.Spec
