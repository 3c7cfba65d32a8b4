/-
Specification for C68 and C69: changes of the coordinates of the search space.
-/
import Verif.Model.MultiGauss
import Verif.Model.UniBin

namespace Verif.Spec

/-- The best individual after a change of coordinates. -/
def moveBest {R R' : Type} (φ : R → R') : BestInd R → BestInd R'
  | .index i => .index i
  | .row r => .row (φ r)

/-- The second run is the first one seen through the change of coordinates `φ`: the same exception, or
the same costs, history and number of evaluations, and `φ` of the best individual and of every individual
passed to the cost function, call by call. -/
def Image {R R' C σ σ' : Type} (φ : R → R') (out : Except PyErr (EdaResult R C × St R C σ))
    (out' : Except PyErr (EdaResult R' C × St R' C σ')) : Prop :=
  match out, out' with
  | .error err, .error err' => err = err'
  | .ok (res, s), .ok (res', s') =>
      res'.bestInd = moveBest φ res.bestInd ∧ res'.bestCost = res.bestCost ∧ res'.nFev = res.nFev ∧
        res'.history = res.history ∧ s'.log = s.log.map (List.map (fun x => (φ x.1, x.2)))
  | _, _ => False

variable {K : Type} [Field K] [LinearOrder K]

/-- New coordinates: variable `j` (of `n'`) is the old variable `π j`, measured in units `1 / c` from the
origin `-a j`. -/
def recoord (c : K) (a : ℕ → K) (π : ℕ → ℕ) (n' : ℕ) (r : List K) : List K :=
  (List.range n').map (fun j => c * r.getD (π j) 0 + a j)

/-- The same draws for the new variables. -/
def SameDraws (c : K) (π : ℕ → ℕ) (n' : ℕ) (ω ω' : Draws K) : Prop :=
  ∀ i j, j < n' → ω' i j = c * ω i (π j)

/-- The argument `b` sets the bound of variable `j` to `v j`, for each of `n` variables. -/
inductive IsBound (n : ℕ) (v : ℕ → K) : Bound K → Prop
  | scalar (x) : (∀ j < n, v j = x) → IsBound n v (.scalar x)
  | list (l : List K) : l.length = n → (∀ j < n, l[j]? = some (v j)) → IsBound n v (.list l)
  | array (l : List K) : l.length = n → (∀ j < n, l[j]? = some (v j)) → IsBound n v (.array l)

/-- The settings of the base class agree, apart from the variables and the individuals. -/
structure SameBase (c : K) (a : ℕ → K) (π : ℕ → ℕ) (cfg cfg' : BaseCfg K (List K)) : Prop where
  sizeGen : cfg'.sizeGen = cfg.sizeGen
  maxIter : cfg'.maxIter = cfg.maxIter
  deadIter : cfg'.deadIter = cfg.deadIter
  alpha : cfg'.alpha = cfg.alpha
  eliteFactor : cfg'.eliteFactor = cfg.eliteFactor
  parallel : cfg'.parallel = cfg.parallel
  noise : cfg'.wNoise = cfg.wNoise.map (c * ·)
  noiseNonneg : ∀ w, cfg.wNoise = some w → 0 ≤ w
  vars : ∀ j < cfg'.nVars, π j < cfg.nVars
  nonempty : 0 < cfg'.nVars
  /-- `init_data`, when given, is an array and is expressed in the new coordinates. -/
  data : ∀ d, cfg.initData = some d → (∀ r ∈ d.rows, r.length = cfg.nVars)
  data' : cfg'.initData = cfg.initData.map (fun d =>
    { dt := d.dt, cols := cfg'.nVars, rows := d.rows.map (recoord c a π cfg'.nVars) })

/-- Bounds in the old and in the new coordinates. -/
def SameBounds (c : K) (a : ℕ → K) (π : ℕ → ℕ) (n n' : ℕ) (lo up lo' up' : Bound K) : Prop :=
  ∃ l u : ℕ → K, IsBound n l lo ∧ IsBound n u up ∧
    IsBound n' (fun j => c * l (π j) + a j) lo' ∧ IsBound n' (fun j => c * u (π j) + a j) up'

/-- The arguments of `UMDAc` or `PBIL` in the old and in the new coordinates: the minimal deviation is a
length; the initial population comes from `init_data`, from `vector` or from the bounds. -/
structure SameCont (c : K) (a : ℕ → K) (π : ℕ → ℕ) (cfg cfg' : UMDAcCfg K) : Prop where
  base : SameBase c a π cfg.base cfg'.base
  factor : cfg'.lowerFactor = c * cfg.lowerFactor
  start : cfg.base.initData ≠ none ∨
    (∃ m s : List K, cfg.vector = some [m, s] ∧ (∀ x ∈ s, 0 ≤ x) ∧
      cfg'.vector = some [recoord c a π cfg'.base.nVars m, recoord c 0 π cfg'.base.nVars s]) ∨
    (cfg.vector = none ∧ cfg'.vector = none ∧
      SameBounds c a π cfg.base.nVars cfg'.base.nVars cfg.lower cfg.upper cfg'.lower cfg'.upper)

/-- Draws of the two runs: those of the initializer and of the models are shared, the noise is a
length. -/
structure SameRand (c : K) (π : ℕ → ℕ) (n' : ℕ) (ρ ρ' : Rand (Draws K)) : Prop where
  init : SameDraws 1 π n' ρ.init ρ'.init
  noise : SameDraws c π n' ρ.noise ρ'.noise
  learn : ∀ t, SameDraws 1 π n' (ρ.learn t) (ρ'.learn t)
  sample : ∀ t, SameDraws 1 π n' (ρ.sample t) (ρ'.sample t)

end Verif.Spec
