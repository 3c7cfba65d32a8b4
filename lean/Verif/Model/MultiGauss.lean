/-
Model of `MultiGauss` (multivariate_gaussian.py), `MultiGaussGenInit` (multi_gauss_geninit.py) and
`EMNA` (emna.py).  Arithmetic is exact (any ordered field); `sq` is `np.sqrt`.
-/
import Verif.Model.Gauss

namespace Verif

variable {K : Type} [Field K] [LinearOrder K]

/-- Entry `(i, j)` of a two-dimensional array given by its rows. -/
def entry (m : List (List K)) (i j : ℕ) : K := (m.getD i []).getD j 0

/-- multivariate_gaussian.py:18-30: number of variables, bounds, `pm_means`, `pm_cov`. -/
structure MultiGauss (K : Type) where
  n : ℕ
  lb : K
  ub : K
  means : List K
  cov : List (List K)

/-- multivariate_gaussian.py:18-30 `__init__`.  (`np.empty` leaves the means uninitialised; here
they are zeros.) -/
def MultiGauss.new (n : ℕ) (lb ub : K) : MultiGauss K :=
  { n := n, lb := lb, ub := ub, means := List.replicate n 0
    cov := List.replicate n (List.replicate n 0) }

/-- One entry of `np.cov(dataset.T)`: centre the columns, multiply, divide by `N - 1`. -/
def covEntry (rows : List (List K)) (i j : ℕ) : K :=
  rows.foldl (fun acc r =>
    acc + (r.getD i 0 - colMean rows i) * (r.getD j 0 - colMean rows j)) 0 / ((rows.length : K) - 1)

/-- multivariate_gaussian.py:55-56: entries below `lb` are set to `lb`, then those above `ub` to
`ub`. -/
def clampEntry (lb ub x : K) : K :=
  let y := if x < lb then lb else x
  if ub < y then ub else y

/-- multivariate_gaussian.py:44-57 `learn`.  The covariance of a single column is 0-dimensional, so
`np.fill_diagonal` raises `ValueError`; statistics of fewer than two rows are NaN and arrays without
columns are degenerate (both not modelled). -/
def MultiGauss.learn (sq : K → K) (b : MultiGauss K) (g : Gen (List K)) :
    Except PyErr (MultiGauss K) :=
  if g.cols < b.n then .error .indexError
  else if g.cols = 1 then .error .valueError
  else if g.cols = 0 ∨ g.rows.length < 2 then .error .notModelled
  else .ok { b with
    means := (List.range b.n).map (colMean g.rows)
    cov := (List.range g.cols).map (fun i => (List.range g.cols).map (fun j =>
      if i = j then colStd sq g.rows i else clampEntry b.lb b.ub (covEntry g.rows i j))) }

/-- multivariate_gaussian.py:32-42 `sample`: `np.random.multivariate_normal(mean, cov, size)`.
numpy computes a singular value decomposition `cov = u · diag s · v` and returns
`mean + z · (diag (√s) · v)` for standard normal `z` (`ω i k`); `fac` maps `cov` to
`diag (√s) · v`.  Shapes that do not match are a `ValueError`; a matrix that is not positive
semidefinite only causes a warning. -/
def MultiGauss.sample (fac : List (List K) → List (List K)) (b : MultiGauss K) (size : ℤ)
    (ω : Draws K) : Except PyErr (Gen (List K)) :=
  if size < 0 then .error .valueError
  else if ¬ (b.cov.all (fun r => r.length = b.cov.length)) then .error .valueError
  else if b.means.length ≠ b.cov.length then .error .valueError
  else .ok { dt := .float, cols := b.means.length,
             rows := (List.range size.toNat).map (fun i => (List.range b.means.length).map (fun j =>
               b.means.getD j 0 +
                 ((List.range b.means.length).map (fun k => ω i k * entry (fac b.cov) k j)).sum)) }

/-- multi_gauss_geninit.py:15-46 `MultiGaussGenInit.__init__`; `k 0` and `k 1` decide the choices
of the means and (row by row) of the matrix. -/
def multiGaussInit [FloorRing K] (n : ℕ) (means : List K) (cov : List (List K)) (lb hb : K)
    (k : ℕ → ℕ → ℕ) : Except PyErr (MultiGauss K) :=
  if means.length ≠ cov.length then .error .assertion
  else if means.length = 0 then
    match choice (arange lb (hb + 1)) n (k 0) with
    | .error err => .error err
    | .ok m =>
      match choice (arange lb (hb + 1)) (n * n) (k 1) with
      | .error err => .error err
      | .ok c => .ok { n := n, lb := lb, ub := hb, means := m
                       cov := (List.range n).map (fun i => (List.range n).map (fun j =>
                         c.getD (i * n + j) 0)) }
  else .ok { n := n, lb := lb, ub := hb, means := means, cov := cov }

/-- Arguments of `EMNA.__init__` (emna.py:48-62). -/
structure EMNACfg (K : Type) where
  base : BaseCfg K (List K)
  lower : Bound K
  upper : Bound K
  lowerFactor : K
  upperFactor : K

/-- `self.init.sample(size=self.size_gen)` (eda.py:88) with a `UniformGenInit`. -/
def uniformInitSample (fl : K → K) (n : ℕ) (lower upper : Bound K) (size : ℤ) (ω : Draws K) :
    Except PyErr (Gen (List K)) :=
  match UniformInit.new n lower upper with
  | .error err => .error err
  | .ok u => u.sample fl size ω

/-- emna.py:83-91 `EMNA.__init__`. -/
def EMNA [FloorRing K] (fl sq : K → K) (fac : List (List K) → List (List K)) (cfg : EMNACfg K) :
    Except PyErr (Eda (List K) (MultiGauss K) (Draws K) × MultiGauss K) :=
  match mkEda fl cfg.base (uniformInitSample fl cfg.base.nVars cfg.lower cfg.upper cfg.base.sizeGen)
      (fun b g _ _ => MultiGauss.learn sq b g)
      (fun b ω => MultiGauss.sample fac b cfg.base.sizeGen ω) with
  | .error err => .error err
  | .ok e =>
    match UniformInit.new cfg.base.nVars cfg.lower cfg.upper with
    | .error err => .error err
    | .ok _ => .ok (e, MultiGauss.new cfg.base.nVars cfg.lowerFactor cfg.upperFactor)

end Verif
