/-
Changes of the coordinates of the search space by invertible affine maps, and rotations of the normal draws.
-/
import Verif.Spec.Moments
import Verif.Model.Archive
import Mathlib.LinearAlgebra.Matrix.NonsingularInverse

namespace Verif.Spec

/-- New coordinates of the point `x` with `n` variables: `v + x B`. -/
noncomputable def affineCoord (n : ℕ) (B : ℕ → ℕ → ℝ) (v : ℕ → ℝ) (x : List ℝ) : List ℝ :=
  (List.range n).map (fun j => v j + ∑ i ∈ Finset.range n, x.getD i 0 * B i j)

/-- The configuration with the initial data in the new coordinates. -/
noncomputable def kedaMoved (B : ℕ → ℕ → ℝ) (v : ℕ → ℝ) (cfg : KedaCfg ℝ) : KedaCfg ℝ :=
  { cfg with base := { cfg.base with
      initData := cfg.base.initData.map fun d => { d with rows := d.rows.map (affineCoord cfg.base.nVars B v) } } }

/-- The first `n` draws of every individual, a vector of normal numbers, are multiplied by `Q`. -/
noncomputable def rotated (n : ℕ) (Q : Matrix (Fin n) (Fin n) ℝ) (z : Draws ℝ) : Draws ℝ := fun i j =>
  if h : j < n then ∑ k : Fin n, z i k * Q k ⟨j, h⟩ else z i j

/-- `Φ` rotates the normal draws of every generation by an orthogonal matrix that depends on the draws of the earlier
generations only. -/
def RotatesAhead (n : ℕ) (Φ : (ℕ → Draws ℝ) → ℕ → Draws ℝ) : Prop :=
  ∃ Q : ℕ → (ℕ → Draws ℝ) → Matrix (Fin n) (Fin n) ℝ, (∀ t ω, (Q t ω).transpose * Q t ω = 1) ∧
    (∀ t ω ω', (∀ u < t, ω u = ω' u) → Q t ω = Q t ω') ∧ ∀ ω t, Φ ω t = rotated n (Q t ω) (ω t)

end Verif.Spec
