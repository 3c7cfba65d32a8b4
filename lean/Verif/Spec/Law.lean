/-
Random generations: what it means that a sampler draws independent values (or independent individuals)
with given probability laws, and the laws of the models.  The laws are Mathlib's.
-/
import Verif.Model.Categorical
import Mathlib.Probability.HasLaw
import Mathlib.Probability.Distributions.Gaussian.Multivariate

namespace Verif.Spec

open MeasureTheory ProbabilityTheory

/-- Categories carry the discrete σ-algebra. -/
instance {α : Type} : MeasurableSpace (Cat α) := ⊤

/-- The random numbers `U ω i j` of one call of `sample`: all independent, number `j` of individual `i` with
the law `law j`. -/
structure IndepDraws {Ω : Type} [MeasurableSpace Ω] (P : Measure Ω) (law : ℕ → Measure ℝ)
    (U : Ω → Draws ℝ) : Prop where
  measurable : ∀ i j, Measurable (fun ω => U ω i j)
  rows : iIndepFun (fun i ω => U ω i) P
  cells : ∀ i, iIndepFun (fun j ω => U ω i j) P
  law : ∀ i j, HasLaw (fun ω => U ω i j) (law j) P

/-- The uniform distribution on `[0, 1)`. -/
noncomputable def unif01 : Measure ℝ := volume.restrict (Set.Ico 0 1)

/-- With probability 1 the sampler returns `size` individuals of `n` values; all these values are
independent, and variable `j` has the law `law j`. -/
def IndepCells {Ω V : Type} [MeasurableSpace Ω] [MeasurableSpace V] (P : Measure Ω) (size n : ℕ)
    (draw : Ω → Except PyErr (Gen (List V))) (law : Fin n → Measure V) : Prop :=
  ∃ X : Fin size × Fin n → Ω → V,
    (∀ᵐ ω ∂P, ∃ g, draw ω = .ok g ∧ g.cols = n ∧ g.rows.length = size ∧
      ∀ i : Fin size, ∃ r, g.rows[i]? = some r ∧ r.length = n ∧ ∀ j : Fin n, r[j]? = some (X (i, j) ω)) ∧
    iIndepFun X P ∧ ∀ i j, HasLaw (X (i, j)) (law j) P

/-- With probability 1 the sampler returns `size` individuals of `n` values; the individuals are
independent and all have the law `law`. -/
def IndepRows {Ω : Type} [MeasurableSpace Ω] (P : Measure Ω) (size n : ℕ)
    (draw : Ω → Except PyErr (Gen (List ℝ))) (law : Measure (EuclideanSpace ℝ (Fin n))) : Prop :=
  ∃ X : Fin size → Ω → EuclideanSpace ℝ (Fin n),
    (∀ᵐ ω ∂P, ∃ g, draw ω = .ok g ∧ g.cols = n ∧ g.rows.length = size ∧
      ∀ i : Fin size, ∃ r, g.rows[i]? = some r ∧ r.length = n ∧ ∀ j : Fin n, r[j]? = some (X i ω j)) ∧
    iIndepFun X P ∧ ∀ i, HasLaw (X i) law P

/-- The value 1 with probability `p`, otherwise 0. -/
noncomputable def coin (p : ℝ) : Measure ℝ :=
  ENNReal.ofReal p • Measure.dirac 1 + ENNReal.ofReal (1 - p) • Measure.dirac 0

/-- The uniform distribution on `[a, b)`. -/
noncomputable def unifOn (a b : ℝ) : Measure ℝ := (ENNReal.ofReal (b - a))⁻¹ • volume.restrict (Set.Ico a b)

/-- The values of a table, each with probability proportional to its weight. -/
noncomputable def weighted {V : Type} [MeasurableSpace V] (t : List (V × ℝ)) : Measure V :=
  (t.map (fun vq => ENNReal.ofReal (vq.2 / (t.map Prod.snd).sum) • Measure.dirac vq.1)).sum

/-- One of `N` laws, each with probability `1 / N`. -/
noncomputable def mixture {V : Type} [MeasurableSpace V] (N : ℕ) (law : ℕ → Measure V) : Measure V :=
  (N : ENNReal)⁻¹ • ∑ k ∈ Finset.range N, law k

/-- A value chosen from the list, every position equally likely. -/
noncomputable def pickedFrom {V : Type} [MeasurableSpace V] (l : List V) : Measure V :=
  (l.length : ENNReal)⁻¹ • (l.map Measure.dirac).sum

end Verif.Spec
