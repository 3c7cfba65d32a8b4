/-
Statistical vocabulary used in the specifications: columns, means, variances, clipping, binary rows.
-/
import Mathlib.Data.List.Basic
import Mathlib.Algebra.Order.Field.Basic
import Mathlib.Algebra.BigOperators.Group.List.Basic
import Mathlib.Algebra.BigOperators.Group.Finset.Basic

namespace Verif.Spec

variable {K : Type} [Field K] [LinearOrder K]

/-- Every row has `n` entries. -/
def Rect {α : Type} (n : ℕ) (data : List (List α)) : Prop := ∀ r ∈ data, r.length = n

/-- Column `j` of a dataset. -/
def col (data : List (List K)) (j : ℕ) : List K := data.map (fun r => r.getD j 0)

/-- Arithmetic mean. -/
def mean (l : List K) : K := l.sum / l.length

/-- Population variance. -/
def variance (l : List K) : K := mean (l.map (fun x => (x - mean l) ^ 2))

/-- Sample covariance of two columns (divided by `N - 1`). -/
def covariance (x y : List K) : K :=
  (List.zipWith (fun a b => (a - mean x) * (b - mean y)) x y).sum / (x.length - 1)

/-- The `n × n` matrix is positive semidefinite: no quadratic form value is negative. -/
def PSD (n : ℕ) (m : ℕ → ℕ → K) : Prop :=
  ∀ x : ℕ → K, 0 ≤ ∑ i ∈ Finset.range n, ∑ j ∈ Finset.range n, x i * m i j * x j

/-- The value of `x` forced into `[lo, hi]`. -/
def clip (lo hi x : K) : K := max lo (min hi x)

/-- A row of `n` zeros and ones. -/
def BinaryRow (n : ℕ) (r : List K) : Prop := r.length = n ∧ ∀ x ∈ r, x = 0 ∨ x = 1

/-- All draws are in `[0, 1)`, as `np.random.random` guarantees. -/
def Unit01 (ω : ℕ → ℕ → K) : Prop := ∀ i j, 0 ≤ ω i j ∧ ω i j < 1

/-- All draws are multiples of `2^-53` in `[0, 1)`: the doubles `np.random.random` can return. -/
def Draw64 (ω : ℕ → ℕ → K) : Prop := ∀ i j, ∃ k : ℕ, k < 2 ^ 53 ∧ ω i j = k / 2 ^ 53

/-- Contract of `np.sqrt` on non-negative numbers. -/
def IsSqrt (sq : K → K) : Prop := ∀ x, 0 ≤ x → 0 ≤ sq x ∧ sq x * sq x = x

end Verif.Spec
