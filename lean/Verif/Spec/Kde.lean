/-
Positive definite matrices, and the moments of a draw that first chooses one of `N` equally likely
indices.
-/
import Verif.Spec.Moments

namespace Verif.Spec

/-- The `n × n` matrix is positive definite. -/
def PD {K : Type} [Field K] [LinearOrder K] (n : ℕ) (m : ℕ → ℕ → K) : Prop :=
  ∀ x : ℕ → K, (∃ i < n, x i ≠ 0) →
    0 < ∑ i ∈ Finset.range n, ∑ j ∈ Finset.range n, x i * m i j * x j

/-- Mean of `x k z` when `k` is one of `0, …, N - 1`, all equally likely, and `z` has the
expectation `E`. -/
noncomputable def mixMean (N : ℕ) (E : ((ℕ → ℝ) → ℝ) → ℝ) (x : ℕ → (ℕ → ℝ) → ℝ) : ℝ :=
  (∑ k ∈ Finset.range N, E (x k)) / N

/-- Covariance of `x k z` and `y k z` for the same choice of `k` and `z`. -/
noncomputable def mixCov (N : ℕ) (E : ((ℕ → ℝ) → ℝ) → ℝ) (x y : ℕ → (ℕ → ℝ) → ℝ) : ℝ :=
  mixMean N E (fun k z => (x k z - mixMean N E x) * (y k z - mixMean N E y))

end Verif.Spec
