/-
Expectations of functions of a vector of random draws, given abstractly: a linear functional on a
class of functions that maps constants to themselves and gives the first `n` draws mean 0,
variance 1 and no correlation (for example the integral of the integrable functions with respect
to independent standard normal draws, or the average over a finite design).
-/
import Verif.Spec.Stats
import Mathlib.Analysis.Real.Sqrt
import Mathlib.LinearAlgebra.Matrix.Symmetric

namespace Verif.Spec

/-- Expectation (for the functions in `dom`) over `n` uncorrelated standardised draws. -/
structure Expectation (n : ℕ) (dom : ((ℕ → ℝ) → ℝ) → Prop) (E : ((ℕ → ℝ) → ℝ) → ℝ) : Prop where
  domAdd : ∀ f g, dom f → dom g → dom (fun z => f z + g z)
  domSmul : ∀ (c : ℝ) f, dom f → dom (fun z => c * f z)
  domOne : dom (fun _ => 1)
  domDraw : ∀ k < n, dom (fun z => z k)
  domMul : ∀ k < n, ∀ l < n, dom (fun z => z k * z l)
  add : ∀ f g, dom f → dom g → E (fun z => f z + g z) = E f + E g
  smul : ∀ (c : ℝ) f, dom f → E (fun z => c * f z) = c * E f
  one : E (fun _ => 1) = 1
  mean : ∀ k < n, E (fun z => z k) = 0
  var : ∀ k < n, E (fun z => z k * z k) = 1
  uncorrelated : ∀ k < n, ∀ l < n, k ≠ l → E (fun z => z k * z l) = 0

/-- Covariance of two functions of the draws. -/
def Cov (E : ((ℕ → ℝ) → ℝ) → ℝ) (f g : (ℕ → ℝ) → ℝ) : ℝ :=
  E (fun z => (f z - E f) * (g z - E g))

/-- The upper left `n × n` part of a matrix of functions. -/
def toMat (n : ℕ) (m : ℕ → ℕ → ℝ) : Matrix (Fin n) (Fin n) ℝ := fun i j => m i j

/-- `a = diag (√s) · v` for some singular value decomposition `c = u · diag s · v`. -/
def IsSvdRoot (n : ℕ) (c a : ℕ → ℕ → ℝ) : Prop :=
  ∃ (u v : Matrix (Fin n) (Fin n) ℝ) (s : Fin n → ℝ),
    u.transpose * u = 1 ∧ v * v.transpose = 1 ∧ v.transpose * v = 1 ∧ (∀ i, 0 ≤ s i) ∧
    toMat n c = u * Matrix.diagonal s * v ∧
    toMat n a = Matrix.diagonal (fun i => Real.sqrt (s i)) * v

end Verif.Spec
