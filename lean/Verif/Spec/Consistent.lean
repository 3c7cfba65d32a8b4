/-
Consistency: a model is learned from its own samples.
-/
import Verif.Spec.Law

namespace Verif.Spec

open MeasureTheory Filter Topology

/-- With probability 1: from some number of individuals on, `sample` followed by `learn` raises nothing, and
the parameter `i` of the learned model tends to `target i` as the number of individuals grows. -/
def LearnsTo {Ω R M ι : Type} [MeasurableSpace Ω] (P : Measure Ω) (sample : ℕ → Ω → Except PyErr (Gen R))
    (learn : Gen R → Except PyErr M) (param : M → ι → ℝ) (target : ι → ℝ) : Prop :=
  ∀ᵐ ω ∂P, ∃ m : ℕ → M, (∃ N₀, ∀ N ≥ N₀, ∃ g, sample N ω = .ok g ∧ learn g = .ok (m N)) ∧
    ∀ i, Tendsto (fun N => param (m N) i) atTop (𝓝 (target i))

/-- The probability that a table gives to a value. -/
noncomputable def probOf {V : Type} [DecidableEq V] (t : List (V × ℝ)) (v : V) : ℝ :=
  ((t.filter (fun vq => vq.1 = v)).map Prod.snd).sum

end Verif.Spec
