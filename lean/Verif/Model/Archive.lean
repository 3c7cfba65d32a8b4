/-
Model of the algorithms built on the continuous networks: `EGNA` (egna.py), `SPEDA` (speda.py),
`MultivariateKEDA` (multivariate/keda.py); and of `UniKDE` (univariate_kde.py) with
`UnivariateKEDA` (univariate/keda.py).
-/
import Verif.Model.Net

namespace Verif

variable {S L K : Type} [DecidableEq L] [Field K] [LinearOrder K] [FloorRing K]

/-- Arguments of `EGNA.__init__` (egna.py:49-63), `SPEDA.__init__` (speda.py:52-66) and
`MultivariateKEDA.__init__` (multivariate/keda.py:46-60), without `disp` and `l`. -/
structure NetCfg (K L : Type) where
  base : BaseCfg K (List K)
  lower : Bound K
  upper : Bound K
  white : Option (List (L × L))
  black : Option (List (L × L))

/-- egna.py:83-90 `EGNA.__init__`.  `name` is Python's `str` on integers. -/
def EGNA (fl : K → K) (lib : NetLib S L K (Draws K)) (name : ℕ → L) (cfg : NetCfg K L) :
    Except PyErr (Eda (List K) (BNet S L K) (Draws K) × BNet S L K) :=
  match mkEda fl cfg.base (uniformInitSample fl cfg.base.nVars cfg.lower cfg.upper cfg.base.sizeGen)
      (fun b g _ ω => b.learn lib g 10 ω)
      (fun b ω => b.sample lib cfg.base.sizeGen ω) with
  | .error err => .error err
  | .ok e =>
    match UniformInit.new cfg.base.nVars cfg.lower cfg.upper with
    | .error err => .error err
    | .ok _ => .ok (e, BNet.new lib .gaussian ((List.range cfg.base.nVars).map name) cfg.white
        cfg.black)

/-- The attributes `pm` and `archive` of `SPEDA` and `MultivariateKEDA`. -/
structure Arch (S L K : Type) where
  net : BNet S L K
  archive : Gen (List K)

/-- speda.py:98 `l*int(size_gen*self.alpha)` (multivariate/keda.py:93). -/
def archLen (fl : K → K) (l : Num K) (sizeGen : ℤ) (alpha : K) : Num K :=
  match l with
  | .int k => .int (k * selLen fl sizeGen alpha)
  | .flt x => .flt (x * (selLen fl sizeGen alpha : K))

/-- speda.py:106-108 and multivariate/keda.py:101-103 `_update_archive`: append the elite, keep the
slice `[-l_len:]`.  Slicing with a float is a `TypeError`. -/
def updateArchive (lLen : Num K) (archive elite : Gen (List K)) : Except PyErr (Gen (List K)) :=
  match archive.concat elite with
  | .error err => .error err
  | .ok a =>
    match lLen with
    | .int k => .ok { a with rows := sliceFrom a.rows (-k) }
    | .flt _ => .error .typeError

/-- speda.py:110-116 and multivariate/keda.py:105-111 `_update_pm`. -/
def Arch.update (lib : NetLib S L K (Draws K)) (lLen : Num K) (a : Arch S L K)
    (elite : Gen (List K)) (ω : Draws K) : Except PyErr (Arch S L K) :=
  match updateArchive lLen a.archive elite with
  | .error err => .error err
  | .ok archive =>
    match a.net.learn lib archive 10 ω with
    | .error err => .error err
    | .ok net => .ok { net := net, archive := archive }

/-- The common constructor: speda.py:90-104 and multivariate/keda.py:85-99; `kind` is the network
class.  (`elite_factor=alpha` is passed to `EDA.__init__`.) -/
def archEda (kind : BnType) (fl : K → K) (lib : NetLib S L K (Draws K)) (name : ℕ → L) (l : Num K)
    (cfg : NetCfg K L) : Except PyErr (Eda (List K) (Arch S L K) (Draws K) × Arch S L K) :=
  match mkEda fl { cfg.base with eliteFactor := cfg.base.alpha }
      (uniformInitSample fl cfg.base.nVars cfg.lower cfg.upper cfg.base.sizeGen)
      (fun a _ elite ω => a.update lib (archLen fl l cfg.base.sizeGen cfg.base.alpha) elite ω)
      (fun a ω => a.net.sample lib cfg.base.sizeGen ω) with
  | .error err => .error err
  | .ok e =>
    match UniformInit.new cfg.base.nVars cfg.lower cfg.upper with
    | .error err => .error err
    | .ok _ => .ok (e,
        { net := BNet.new lib kind ((List.range cfg.base.nVars).map name) cfg.white cfg.black
          archive := { dt := .float, cols := cfg.base.nVars, rows := [] } })

/-- speda.py:90-104 `SPEDA.__init__`. -/
def SPEDA (fl : K → K) (lib : NetLib S L K (Draws K)) (name : ℕ → L) (l : Num K)
    (cfg : NetCfg K L) : Except PyErr (Eda (List K) (Arch S L K) (Draws K) × Arch S L K) :=
  archEda .semiparametric fl lib name l cfg

/-- multivariate/keda.py:85-99 `MultivariateKEDA.__init__`. -/
def MultivariateKEDA (fl : K → K) (lib : NetLib S L K (Draws K)) (name : ℕ → L) (l : Num K)
    (cfg : NetCfg K L) : Except PyErr (Eda (List K) (Arch S L K) (Draws K) × Arch S L K) :=
  archEda .kde fl lib name l cfg

/-- `scipy.stats.gaussian_kde(data)`: the points (one per row) and the kernel covariance. -/
structure Kde (K : Type) where
  rows : List (List K)
  cov : List (List K)

/-- univariate_kde.py:17-21: number of variables and `kernel` (`None` before `learn`). -/
structure UniKDE (K : Type) where
  n : ℕ
  kernel : Option (Kde K)

/-- univariate_kde.py:34-40 `learn`: `gaussian_kde(dataset.T)`.  scipy computes the covariance
matrix of the rows (divisor `N - 1`), raises `LinAlgError` if its Cholesky factorisation fails
(`isPD`), and multiplies it by the squared bandwidth `h2 N d` (Scott: `N^(-2/(d+4))`).  Data with
at most one number is a `ValueError`; the covariance of a single row is NaN (not modelled). -/
def UniKDE.learn (isPD : List (List K) → Bool) (h2 : ℕ → ℕ → K) (b : UniKDE K) (g : Gen (List K)) :
    Except PyErr (UniKDE K) :=
  if g.rows.length * g.cols ≤ 1 then .error .valueError
  else if g.rows.length < 2 then .error .notModelled
  else
    let c := (List.range g.cols).map (fun i => (List.range g.cols).map (covEntry g.rows i))
    if isPD c then
      .ok { b with kernel := some { rows := g.rows
                                    cov := c.map (List.map (fun x => x * h2 g.rows.length g.cols)) } }
    else .error .linAlg

/-- `RandomState.choice(n, p=[1/n]*n)` from the uniform draw `u` in `[0, 1)`. -/
def pick (n : ℕ) (u : K) : ℕ := (pyInt (u * (n : K))).toNat

/-- One row of `gaussian_kde.resample(size).T`: the `k`-th point plus a draw from the normal
distribution with the kernel covariance (`fac` as in `MultiGauss.sample`). -/
def Kde.row (fac : List (List K) → List (List K)) (ker : Kde K) (k : ℕ) (z : ℕ → K) : List K :=
  (List.range ker.cov.length).map (fun j =>
    (ker.rows.getD k []).getD j 0 +
      ((List.range ker.cov.length).map (fun i => z i * entry (fac ker.cov) i j)).sum)

/-- univariate_kde.py:23-32 `sample`: `kernel.resample(size).T`.  In row `i` the draws
`ω i 0, …, ω i (d-1)` are standard normal and `ω i d` is uniform in `[0, 1)` and selects the point.
`None` has no attribute `resample` (`AttributeError`, here `exception`). -/
def UniKDE.sample (fac : List (List K) → List (List K)) (b : UniKDE K) (size : ℤ) (ω : Draws K) :
    Except PyErr (Gen (List K)) :=
  match b.kernel with
  | none => .error .exception
  | some ker =>
    if size < 0 then .error .valueError
    else .ok { dt := .float, cols := ker.cov.length
               rows := (List.range size.toNat).map (fun i =>
                 ker.row fac (pick ker.rows.length (ω i ker.cov.length)) (ω i)) }

/-- univariate_kde.py:42-49 `print_structure`. -/
def UniKDE.printStructure (_ : UniKDE K) : List (ℕ × ℕ) := []

/-- Arguments of `UnivariateKEDA.__init__` (univariate/keda.py:44-56), without `disp`. -/
structure KedaCfg (K : Type) where
  base : BaseCfg K (List K)
  lower : Bound K
  upper : Bound K

/-- univariate/keda.py:77-84 `UnivariateKEDA.__init__`. -/
def UnivariateKEDA (fl : K → K) (isPD : List (List K) → Bool) (h2 : ℕ → ℕ → K)
    (fac : List (List K) → List (List K)) (cfg : KedaCfg K) :
    Except PyErr (Eda (List K) (UniKDE K) (Draws K) × UniKDE K) :=
  match mkEda fl cfg.base (uniformInitSample fl cfg.base.nVars cfg.lower cfg.upper cfg.base.sizeGen)
      (fun b g _ _ => b.learn isPD h2 g)
      (fun b ω => b.sample fac cfg.base.sizeGen ω) with
  | .error err => .error err
  | .ok e =>
    match UniformInit.new cfg.base.nVars cfg.lower cfg.upper with
    | .error err => .error err
    | .ok _ => .ok (e, { n := cfg.base.nVars, kernel := none })

end Verif
