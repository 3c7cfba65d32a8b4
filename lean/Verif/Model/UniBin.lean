/-
Model of `UniBin` (univariate_binary.py), `UniBinGenInit` (uni_bin_geninit.py) and `UMDAd`
(univariate/umda_binary.py).
-/
import Verif.Model.Base

namespace Verif

variable {K : Type} [Field K] [LinearOrder K]

/-- univariate_binary.py:17-27: number of variables, bounds and the vector `pm`. -/
structure UniBin (K : Type) where
  n : ℕ
  lb : K
  ub : K
  p : List K

/-- univariate_binary.py:17-27 `__init__`. -/
def UniBin.new (n : ℕ) (ub lb : K) : Except PyErr (UniBin K) :=
  if lb < ub then .ok { n := n, lb := lb, ub := ub, p := List.replicate n 0 } else .error .assertion

/-- The row `draws < pm` of univariate_binary.py:38-39 cast to `int`: `m` columns after
broadcasting. -/
def binRow (p : List K) (n : ℕ) (m : ℕ) (draw : ℕ → K) : List K :=
  (List.range m).map (fun j =>
    if draw (if n = 1 then 0 else j) < p.getD (if p.length = 1 then 0 else j) 0 then 1 else 0)

/-- univariate_binary.py:29-42 `sample`: comparison of a `(size, n)` array with the vector `pm`
(broadcasting: equal lengths or one of them is 1). -/
def UniBin.sample (b : UniBin K) (size : ℤ) (ω : Draws K) : Except PyErr (Gen (List K)) :=
  if size < 0 then .error .valueError
  else if b.p.length = b.n ∨ b.p.length = 1 ∨ b.n = 1 then
    let m := if b.p.length = 1 then b.n else b.p.length
    .ok { dt := .int, cols := m,
          rows := (List.range size.toNat).map (fun i => binRow b.p b.n m (ω i)) }
  else .error .valueError

/-- Python's `sum(dataset)` for a 2-d array with at least one row. -/
def colSums : List (List K) → List K
  | [] => []
  | r :: rs => rs.foldl (List.zipWith (· + ·)) r

/-- univariate_binary.py:51-53: the in-place clipping of a probability vector. -/
def clipProbs (lb ub : K) (p : List K) : List K :=
  let p := p.map (fun x => if x < lb then lb else x)
  p.map (fun x => if ub < x then ub else x)

/-- univariate_binary.py:44-53 `learn`: `sum(dataset) / len(dataset)` (for no rows this is the
Python expression `0 / 0`), then clipping.  `fl` is the rounding of the division; the sum is exact
(it is a sum of the integers 0 and 1). -/
def UniBin.learn (fl : K → K) (b : UniBin K) (data : List (List K)) : Except PyErr (UniBin K) :=
  match data with
  | [] => .error .zeroDivision
  | r :: rs =>
    let p := (colSums (r :: rs)).map (fun x => fl (x / ((r :: rs).length : K)))
    .ok { b with p := clipProbs b.lb b.ub p }

/-- uni_bin_geninit.py:15-32: the model used by the initializer. -/
def uniBinInit (n : ℕ) (means : List K) : UniBin K :=
  { n := n, lb := 0, ub := 1,
    p := if means.length = 0 then List.replicate n (1 / 2) else means }

/-- Arguments of `UMDAd.__init__` (umda_binary.py:49-61). -/
structure UMDAdCfg (K : Type) where
  base : BaseCfg K (List K)
  vector : Option (List K)
  lower : K
  upper : K

/-- umda_binary.py:90-93: the initializer. -/
def umdadInit (cfg : UMDAdCfg K) : UniBin K :=
  uniBinInit cfg.base.nVars
    (match cfg.vector with | none => List.replicate cfg.base.nVars (1 / 2) | some v => v)

/-- umda_binary.py:76-93: `EDA.__init__` with `w_noise=0`, then the model and the initializer.
Returns the object and its initial model. -/
def UMDAd [FloorRing K] (fl : K → K) (cfg : UMDAdCfg K) :
    Except PyErr (Eda (List K) (UniBin K) (Draws K) × UniBin K) :=
  match mkEda fl { cfg.base with wNoise := some 0 }
      (fun ω => (umdadInit cfg).sample cfg.base.sizeGen ω)
      (fun b g _ _ => b.learn fl g.rows)
      (fun b ω => b.sample cfg.base.sizeGen ω) with
  | .error err => .error err
  | .ok e =>
    match UniBin.new cfg.base.nVars cfg.upper cfg.lower with
    | .error err => .error err
    | .ok b => .ok (e, b)

end Verif
