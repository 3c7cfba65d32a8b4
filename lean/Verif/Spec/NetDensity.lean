/-
The density of a linear Gaussian network: the product over the nodes of the normal densities with
mean `beta[0] + Σ beta[j] · parent[j]` and the variance of the node.
-/
import Verif.Spec.Net
import Mathlib.Probability.Distributions.Gaussian.Real

namespace Verif

namespace Spec

/-- The logarithm of the density at the values `v` of the variables (pybnesian's `logl`). -/
noncomputable def logDensity {L : Type} (net : GNet L ℝ) (v : L → ℝ) : ℝ :=
  (net.top.map (fun l => Real.log (ProbabilityTheory.gaussianPDFReal (linear (net.cpd l) v)
    (Real.toNNReal (net.cpd l).variance) (v l)))).sum

/-- `m` lists the most probable values of `free` when `names` have the values `ev`: every other
assignment with these values of `names` has a smaller density. -/
def IsMode {L : Type} (net : GNet L ℝ) (free names : List L) (ev m : List ℝ) : Prop :=
  ∀ v v' : L → ℝ, names.map v = ev → free.map v = m → names.map v' = ev →
    logDensity net v' ≤ logDensity net v ∧ (free.map v' ≠ m → logDensity net v' < logDensity net v)

end Spec

end Verif
