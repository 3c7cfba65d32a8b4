/-
Specification for C97: reversing the direction of some of the axes of the search space.
-/
import Verif.Spec.Equivariance

namespace Verif.Spec

variable {K : Type} [Field K] [LinearOrder K]

/-- `n` directions, each kept (`1`) or reversed (`-1`). -/
def IsSigns (n : ℕ) (sg : ℕ → K) : Prop := ∀ j < n, sg j = 1 ∨ sg j = -1

/-- The individual with the chosen variables negated. -/
def mirror (sg : ℕ → K) (n : ℕ) (r : List K) : List K := (List.range n).map (fun j => sg j * r.getD j 0)

/-- Negated draws for the reversed variables: normal numbers. -/
def MirrorDraws (sg : ℕ → K) (n : ℕ) (ω ω' : Draws K) : Prop := ∀ i j, j < n → ω' i j = sg j * ω i j

/-- `1 - x` for the reversed variables: numbers in `[0, 1]`. -/
def MirrorUnif (sg : ℕ → K) (n : ℕ) (ω ω' : Draws K) : Prop :=
  ∀ i j, j < n → ω' i j = if sg j = 1 then ω i j else 1 - ω i j

/-- The arguments that all algorithms have in common: only `init_data` changes. -/
structure MirrorBase (sg : ℕ → K) (cfg cfg' : BaseCfg K (List K)) : Prop where
  sizeGen : cfg'.sizeGen = cfg.sizeGen
  maxIter : cfg'.maxIter = cfg.maxIter
  deadIter : cfg'.deadIter = cfg.deadIter
  nVars : cfg'.nVars = cfg.nVars
  alpha : cfg'.alpha = cfg.alpha
  eliteFactor : cfg'.eliteFactor = cfg.eliteFactor
  parallel : cfg'.parallel = cfg.parallel
  noise : cfg'.wNoise = cfg.wNoise
  nonempty : 0 < cfg.nVars
  data : ∀ d, cfg.initData = some d → (∀ r ∈ d.rows, r.length = cfg.nVars)
  data' : cfg'.initData = cfg.initData.map (fun d => { d with rows := d.rows.map (mirror sg cfg.nVars) })

/-- Bounds before and after: the bounds of a reversed variable are negated and change places. -/
def MirrorBounds (sg : ℕ → K) (n : ℕ) (lo up lo' up' : Bound K) : Prop :=
  ∃ l u : ℕ → K, IsBound n l lo ∧ IsBound n u up ∧
    IsBound n (fun j => if sg j = 1 then l j else -u j) lo' ∧
    IsBound n (fun j => if sg j = 1 then u j else -l j) up'

/-- The arguments of `UMDAc` or `PBIL` before and after: the initial population comes from `init_data`,
from `vector` (means and deviations) or from the bounds. -/
structure MirrorCont (sg : ℕ → K) (cfg cfg' : UMDAcCfg K) : Prop where
  base : MirrorBase sg cfg.base cfg'.base
  factor : cfg'.lowerFactor = cfg.lowerFactor
  start : cfg.base.initData ≠ none ∧ cfg'.vector.isNone = cfg.vector.isNone ∨
    (∃ m s : List K, cfg.vector = some [m, s] ∧ cfg'.vector = some [mirror sg cfg.base.nVars m, s]) ∨
    (cfg.vector = none ∧ cfg'.vector = none ∧
      MirrorBounds sg cfg.base.nVars cfg.lower cfg.upper cfg'.lower cfg'.upper)

/-- Draws of the two runs: everything normal is negated for the reversed variables, uniform numbers of the
initializer (`vector` not given) are replaced by `1 - x`. -/
structure MirrorRand (sg : ℕ → K) (n : ℕ) (unif : Bool) (ρ ρ' : Rand (Draws K)) : Prop where
  init : if unif then MirrorUnif sg n ρ.init ρ'.init else MirrorDraws sg n ρ.init ρ'.init
  noise : MirrorDraws sg n ρ.noise ρ'.noise
  sample : ∀ t, MirrorDraws sg n (ρ.sample t) (ρ'.sample t)

end Verif.Spec
