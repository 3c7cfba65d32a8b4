/-
What is required of Latin hypercube samples, and what scipy's Lloyd optimisation guarantees.
-/
import Verif.Spec.Stats
import Verif.Py
import Mathlib.Data.List.Perm.Basic

namespace Verif.Spec

variable {K : Type} [Field K] [LinearOrder K]

/-- `x` lies in slice `k` (of `0, …, size - 1`) of the interval from `lo` to `up` cut into `size`
equal slices (open on the left, closed on the right). -/
def InSlice (lo up : K) (size k : ℕ) (x : K) : Prop :=
  lo + (up - lo) * (k / size) < x ∧ x ≤ lo + (up - lo) * ((k + 1) / size)

/-- Column `j` has exactly one value in each of the `size` slices. -/
def Stratified (lo up : K) (size : ℕ) (c : List K) : Prop :=
  c.length = size ∧ ∀ k < size, ∃! i, i < c.length ∧ ∃ x, c[i]? = some x ∧ InSlice lo up size k x

/-- A sample in the unit hypercube. -/
def UnitCube (d : ℕ) (s : List (List K)) : Prop :=
  Rect d s ∧ ∀ r ∈ s, ∀ x ∈ r, 0 ≤ x ∧ x ≤ 1

/-- scipy's Lloyd optimisation: it keeps the shape and the unit hypercube, and raises `ValueError`
for samples with fewer than two columns. -/
structure IsLloyd (lloyd : ℕ → List (List K) → Except PyErr (List (List K))) : Prop where
  one : ∀ d < 2, ∀ s, lloyd d s = .error .valueError
  cube : ∀ d s s', UnitCube d s → lloyd d s = .ok s' → UnitCube d s' ∧ s'.length = s.length

end Verif.Spec
