/-
Model of the univariate continuous algorithms: `UniGauss` (univariate_gaussian.py),
`AdaptUniGauss` (adaptive_univariate_gaussian.py), `UniformGenInit` (uniform_geninit.py),
`UniGaussGenInit` (uni_gauss_geninit.py), `UMDAc` (umda_continuous.py) and `PBIL` (pbil.py).

Arithmetic is exact (any ordered field); `sq` is `np.sqrt`.
-/
import Verif.Model.Base

namespace Verif

variable {K : Type} [Field K] [LinearOrder K]

/-- A bound argument: `None`, a number, a Python list or a numpy array. -/
inductive Bound (K : Type) where
  | none
  | scalar (x : K)
  | list (l : List K)
  | array (l : List K)

/-- uniform_geninit.py:15-39 `UniformGenInit`. -/
structure UniformInit (K : Type) where
  n : ℕ
  lower : Bound K
  upper : Bound K

/-- The length check of uniform_geninit.py:30-34.  `type(x) is np.array` is never true (`np.array`
is a function), so only lists are checked. -/
def Bound.check (n : ℕ) : Bound K → Bool
  | .list l => l.length = n
  | _ => true

/-- uniform_geninit.py:15-39 `__init__`. -/
def UniformInit.new (n : ℕ) (lower upper : Bound K) : Except PyErr (UniformInit K) :=
  if ¬ lower.check n then .error .assertion
  else if ¬ upper.check n then .error .assertion
  else .ok { n := n, lower := lower, upper := upper }

/-- The bound of variable `j` after broadcasting, when the length allows it (`n` variables). -/
def Bound.at (b : Bound K) (j : ℕ) : K :=
  match b with
  | .none => 0
  | .scalar x => x
  | .list l => l.getD (if l.length = 1 then 0 else j) 0
  | .array l => l.getD (if l.length = 1 then 0 else j) 0

/-- Whether a bound can be broadcast to `n` columns (`np.random.uniform(..., size=(size, n))`). -/
def Bound.fits (n : ℕ) : Bound K → Bool
  | .none => true
  | .scalar _ => true
  | .list l => l.length = n ∨ l.length = 1
  | .array l => l.length = n ∨ l.length = 1

/-- `None` as a bound. -/
def Bound.isNone : Bound K → Bool
  | .none => true
  | _ => false

/-- A sequence as a bound. -/
def Bound.isSeq : Bound K → Bool
  | .list _ => true
  | .array _ => true
  | _ => false

/-- uniform_geninit.py:41-50 `sample`: `np.random.uniform(lower, upper, (size, n))`; `ω i j` are the
underlying numbers in `[0, 1)`; numpy computes `low + (high - low) * random`, `fl` is the rounding of
each operation.  `None` is a `TypeError` among scalars and an `OverflowError`
(here `exception`) when the other bound is a sequence. -/
def UniformInit.sample (fl : K → K) (u : UniformInit K) (size : ℤ) (ω : Draws K) :
    Except PyErr (Gen (List K)) :=
  if u.lower.isNone ∨ u.upper.isNone then
    (if u.lower.isSeq ∨ u.upper.isSeq then .error .exception else .error .typeError)
  else if size < 0 then .error .valueError
  else if ¬ (u.lower.fits u.n ∧ u.upper.fits u.n) then .error .valueError
  else .ok { dt := .float, cols := u.n,
             rows := (List.range size.toNat).map (fun i => (List.range u.n).map (fun j =>
               fl (u.lower.at j + fl (fl (u.upper.at j - u.lower.at j) * ω i j)))) }

/-- univariate_gaussian.py:16-22: number of variables, `lower_bound`, the two rows of `pm`. -/
structure UniGauss (K : Type) where
  n : ℕ
  lb : K
  mean : List K
  std : List K

/-- univariate_gaussian.py:16-22 `__init__` (also adaptive_univariate_gaussian.py:21-29). -/
def UniGauss.new (n : ℕ) (lb : K) : UniGauss K :=
  { n := n, lb := lb, mean := List.replicate n 0, std := List.replicate n 0 }

/-- univariate_gaussian.py:24-35 `sample` (also adaptive_univariate_gaussian.py:31-42):
`np.random.normal(pm[0], pm[1], (size, n))`; `ω i j` are the standard normal draws.  A negative
scale is a `ValueError`, as are shapes that do not broadcast. -/
def UniGauss.sample (b : UniGauss K) (size : ℤ) (ω : Draws K) : Except PyErr (Gen (List K)) :=
  if b.std.any (fun s => s < 0) then .error .valueError
  else if size < 0 then .error .valueError
  else if ¬ ((b.mean.length = b.n ∨ b.mean.length = 1) ∧ (b.std.length = b.n ∨ b.std.length = 1)) then
    .error .valueError
  else .ok { dt := .float, cols := b.n,
             rows := (List.range size.toNat).map (fun i => (List.range b.n).map (fun j =>
               b.mean.getD (if b.mean.length = 1 then 0 else j) 0 +
                 b.std.getD (if b.std.length = 1 then 0 else j) 0 * ω i j)) }

/-- `np.mean(dataset[:, j])`: add up the column, divide by the number of rows. -/
def colMean (rows : List (List K)) (j : ℕ) : K :=
  rows.foldl (fun acc r => acc + r.getD j 0) 0 / (rows.length : K)

/-- `np.std(dataset[:, j])`: square root of the mean squared distance to the mean. -/
def colStd (sq : K → K) (rows : List (List K)) (j : ℕ) : K :=
  sq (rows.foldl (fun acc r => acc + (r.getD j 0 - colMean rows j) * (r.getD j 0 - colMean rows j)) 0
    / (rows.length : K))

/-- univariate_gaussian.py:47-48: the floor for the deviation. -/
def floorStd (lb s : K) : K := if s < lb then lb else s

/-- univariate_gaussian.py:37-48 `learn`.  Missing columns are an `IndexError`; the statistics of
zero rows are NaN (not modelled). -/
def UniGauss.learn (sq : K → K) (b : UniGauss K) (g : Gen (List K)) : Except PyErr (UniGauss K) :=
  if b.n = 0 then .ok b
  else if g.cols < b.n then .error .indexError
  else if g.rows = [] then .error .notModelled
  else .ok { b with
    mean := (List.range b.n).map (colMean g.rows)
    std := (List.range b.n).map (fun j => floorStd b.lb (colStd sq g.rows j)) }

/-- adaptive_univariate_gaussian.py:44-58 `learn` of `AdaptUniGauss` with parameter `alpha`:
`dataset[1, i]` is an `IndexError` for fewer than two rows. -/
def UniGauss.learnAdapt (sq : K → K) (alpha : K) (b : UniGauss K) (g : Gen (List K)) :
    Except PyErr (UniGauss K) :=
  if b.n = 0 then .ok b
  else if g.cols < b.n then .error .indexError
  else match g.rows[0]?, g.rows[1]?, g.rows.getLast? with
    | some r0, some r1, some rl => .ok { b with
        mean := (List.range b.n).map (fun j => (1 - alpha) * colMean g.rows j +
          alpha * (r0.getD j 0 + r1.getD j 0 - rl.getD j 0))
        std := (List.range b.n).map (fun j => floorStd b.lb (colStd sq g.rows j)) }
    | _, _, _ => .error .indexError

/-- `np.arange(a, b)`. -/
def arange [FloorRing K] (a b : K) : List K :=
  (List.range ⌈b - a⌉.toNat).map (fun (i : ℕ) => a + (i : K))

/-- `np.random.choice(l, n)`: uniform choice with replacement; `k j` decides the `j`-th choice.
Choosing at least one element from an empty population is a `ValueError`. -/
def choice (l : List K) (n : ℕ) (k : ℕ → ℕ) : Except PyErr (List K) :=
  if l = [] ∧ n ≠ 0 then .error .valueError
  else .ok ((List.range n).map (fun j => l.getD (k j % l.length) 0))

/-- uni_gauss_geninit.py:15-47 `UniGaussGenInit.__init__`; `k 0` and `k 1` decide the choices. -/
def uniGaussInit [FloorRing K] (n : ℕ) (means stds : List K) (lb hb : K) (k : ℕ → ℕ → ℕ) :
    Except PyErr (UniGauss K) :=
  if means.length ≠ stds.length then .error .assertion
  else if means.length = 0 then
    match choice (arange lb (hb + 1)) n (k 0) with
    | .error err => .error err
    | .ok m =>
      match choice (arange |lb / 4| |hb / 2|) n (k 1) with
      | .error err => .error err
      | .ok s => .ok { n := n, lb := lb, mean := m, std := s }
  else .ok { n := n, lb := lb, mean := means, std := stds }

/-- Arguments of `UMDAc.__init__` (umda_continuous.py:56-70) and `PBIL.__init__` (pbil.py:55-69);
`vector` is a two-dimensional array given by its rows. -/
structure UMDAcCfg (K : Type) where
  base : BaseCfg K (List K)
  lower : Bound K
  upper : Bound K
  vector : Option (List (List K))
  lowerFactor : K

/-- The two kinds of initializer of `UMDAc` and `PBIL`. -/
inductive ContInit (K : Type) where
  | gauss (b : UniGauss K)
  | uniform (u : UniformInit K)

/-- `self.init.sample(size=...)`. -/
def ContInit.sample (fl : K → K) (c : ContInit K) (size : ℤ) (ω : Draws K) :
    Except PyErr (Gen (List K)) :=
  match c with
  | .gauss b => b.sample size ω
  | .uniform u => u.sample fl size ω

/-- umda_continuous.py:100-104 and pbil.py:102-106: the choice of the initializer.  (If there are
no variables the means passed on are empty and nothing is drawn.) -/
def contInit [FloorRing K] (cfg : UMDAcCfg K) : Except PyErr (ContInit K) :=
  match cfg.vector with
  | some [m, s] =>
    if m.length = cfg.base.nVars ∧ s.length = cfg.base.nVars then
      match uniGaussInit cfg.base.nVars m s (-100) 100 (fun _ _ => 0) with
      | .error err => .error err
      | .ok b => .ok (.gauss b)
    else .error .assertion
  | some _ => .error .assertion
  | none =>
    match UniformInit.new cfg.base.nVars cfg.lower cfg.upper with
    | .error err => .error err
    | .ok u => .ok (.uniform u)

/-- `self.init.sample(size=self.size_gen)` (eda.py:88) of the chosen initializer. -/
def contInitSample [FloorRing K] (fl : K → K) (cfg : UMDAcCfg K) (ω : Draws K) :
    Except PyErr (Gen (List K)) :=
  match contInit cfg with
  | .error err => .error err
  | .ok c => c.sample fl cfg.base.sizeGen ω

/-- Constructor shared by `UMDAc` and `PBIL`: `EDA.__init__` is called first; the initializer only
affects what `initGen` does when there is no `init_data`. -/
def mkCont [FloorRing K] (fl : K → K) (base : BaseCfg K (List K)) (cfg : UMDAcCfg K)
    (learn : UniGauss K → Gen (List K) → Gen (List K) → Draws K → Except PyErr (UniGauss K)) :
    Except PyErr (Eda (List K) (UniGauss K) (Draws K) × UniGauss K) :=
  match mkEda fl base
      (contInitSample fl cfg) learn (fun b ω => b.sample cfg.base.sizeGen ω) with
  | .error err => .error err
  | .ok e =>
    match contInit cfg with
    | .error err => .error err
    | .ok _ => .ok (e, UniGauss.new cfg.base.nVars cfg.lowerFactor)

/-- umda_continuous.py:92-106 `UMDAc.__init__`. -/
def UMDAc [FloorRing K] (fl sq : K → K) (cfg : UMDAcCfg K) :
    Except PyErr (Eda (List K) (UniGauss K) (Draws K) × UniGauss K) :=
  mkCont fl cfg.base cfg (fun b g _ _ => b.learn sq g)

/-- pbil.py:91-108 `PBIL.__init__`: the whole generation is kept (`alpha=1`), the argument `alpha` is
the learning rate. -/
def PBIL [FloorRing K] (fl sq : K → K) (cfg : UMDAcCfg K) :
    Except PyErr (Eda (List K) (UniGauss K) (Draws K) × UniGauss K) :=
  mkCont fl { cfg.base with alpha := 1 } cfg (fun b g _ _ => b.learnAdapt sq cfg.base.alpha g)

end Verif
