/-
Renaming the values of some bits: 0 becomes 1 and 1 becomes 0.
-/
import Verif.Model.UniBin
import Mathlib.Data.Real.Basic

namespace Verif.Spec

/-- `1 - x` in the variables chosen by `S`. -/
def flipAt (S : ℕ → Bool) (r : List ℝ) : List ℝ := r.mapIdx (fun j x => if S j then 1 - x else x)

/-- The best individual with the bits renamed. -/
def flipBest (S : ℕ → Bool) : BestInd (List ℝ) → BestInd (List ℝ)
  | .index i => .index i
  | .row r => .row (flipAt S r)

/-- The result of a run with the bits of the best individual renamed. -/
def flipRes {C : Type} (S : ℕ → Bool) (r : EdaResult (List ℝ) C) : EdaResult (List ℝ) C :=
  { r with bestInd := flipBest S r.bestInd }

/-- The same problem with renamed bits: the initial probabilities and the initial data are renamed. -/
def flipCfg (S : ℕ → Bool) (cfg : UMDAdCfg ℝ) : UMDAdCfg ℝ :=
  { cfg with
    vector := cfg.vector.map (flipAt S)
    base := { cfg.base with
      initData := cfg.base.initData.map (fun g => { g with rows := g.rows.map (flipAt S) }) } }

/-- The draws of a run: `u (0, i, j)` for the first generation, `u (t, i, j)` for pass `t` of the loop. -/
def drawsAt (ρ : Rand (ℕ → ℕ → ℝ)) (u : ℕ × ℕ × ℕ → ℝ) : Rand (ℕ → ℕ → ℝ) :=
  { ρ with init := fun i j => u (0, i, j), sample := fun t i j => u (t, i, j) }

/-- `1 - u` for the draws of the chosen variables. -/
def flipDraws (S : ℕ → Bool) (u : ℕ × ℕ × ℕ → ℝ) : ℕ × ℕ × ℕ → ℝ :=
  fun x => if S x.2.2 then 1 - u x else u x

end Verif.Spec
