/-
Model of the constructor of `EDA` (eda.py:24-78) and of the white noise (eda.py:176-188).
-/
import Verif.Model.Core
import Verif.Model.Costs

namespace Verif

variable {K : Type} [Field K] [LinearOrder K]

/-- Python's `int(x)`: truncation towards zero. -/
def pyInt [FloorRing K] (x : K) : ℤ := Num.truncZ x

/-- Arguments of `EDA.__init__` (eda.py:24-35) that matter for `minimize`.
`wNoise = none` is Python's `None`. -/
structure BaseCfg (K R : Type) where
  sizeGen : ℤ
  maxIter : ℤ
  deadIter : ℤ
  nVars : ℕ
  alpha : K
  eliteFactor : K
  parallel : Bool
  initData : Option (Gen R)
  wNoise : Option K

/-- eda.py:42 and :44: `int(size_gen * factor)`; `fl` is the rounding of the float product. -/
def selLen [FloorRing K] (fl : K → K) (sizeGen : ℤ) (factor : K) : ℤ :=
  pyInt (fl ((sizeGen : K) * factor))

/-- eda.py:48-51: the attribute `w_noise`. -/
def BaseCfg.noiseAttr {R : Type} (cfg : BaseCfg K R) : K :=
  match cfg.wNoise with
  | some w => if w = 0 then 0 else w
  | none => 0

/-- The three kinds of `white_noise` (eda.py:176-181). -/
inductive Noise (K : Type) where
  | zero
  | emptyStr
  | matrix (rows cols : ℕ) (m : ℕ → ℕ → K)

/-- eda.py:176-181.  `draws i j` are the values of `np.random.normal(0, w_noise, ...)`; a negative
scale or a negative number of rows is a `ValueError`. -/
def mkWhiteNoise (w : K) (truncLen : ℤ) (nVars : ℕ) (draws : ℕ → ℕ → K) :
    Except PyErr (Noise K) :=
  if w = 0 then .ok .zero
  else if w = -1 then .ok .emptyStr
  else if w < 0 then .error .valueError
  else if truncLen < 0 then .error .valueError
  else .ok (.matrix truncLen.toNat nVars draws)

/-- Addition of one row of the noise matrix (row `i`), with broadcasting over a single column. -/
def addNoiseRow (cols : ℕ) (m : ℕ → ℕ → K) (i : ℕ) (r : List K) : List K :=
  r.mapIdx (fun j x => x + m i (if cols = 1 then 0 else j))

/-- eda.py:188 `self.generation += white_noise` for numeric individuals: the in-place ufunc rules
(casting float to int is refused, shapes must broadcast to the left operand). -/
def addNoise (nz : Noise K) (g : Gen (List K)) : Except PyErr (Gen (List K)) :=
  match nz with
  | .zero => match g.dt with
    | .object => .error .notModelled
    | _ => .ok g
  | .emptyStr => match g.dt with
    | .object => .error .typeError
    | _ => .error .ufuncType
  | .matrix t n m => match g.dt with
    | .int => .error .ufuncType
    | .object => .error .notModelled
    | .float =>
      if (t = g.rows.length ∨ t = 1) ∧ (n = g.cols ∨ n = 1) then
        .ok { g with rows := g.rows.mapIdx (fun i r => addNoiseRow n m (if t = 1 then 0 else i) r) }
      else .error .valueError

/-- Random draws of the numeric algorithms: the value for row `i`, column `j`. -/
abbrev Draws (K : Type) := ℕ → ℕ → K

/-- eda.py:24-78: the constructor.  `mkNoise` is the noise of eda.py:176-188; `initSample`, `learn`,
`sample` are `self.init.sample(size_gen)`, `_update_pm` and `self.pm.sample(size_gen)` of the
subclass. -/
def mkEdaG [FloorRing K] {R σ Ω : Type} (fl : K → K) (cfg : BaseCfg K R)
    (mkNoise : Ω → Except PyErr (Gen R → Except PyErr (Gen R)))
    (initSample : Ω → Except PyErr (Gen R))
    (learn : σ → Gen R → Gen R → Ω → Except PyErr σ)
    (sample : σ → Ω → Except PyErr (Gen R)) : Except PyErr (Eda R σ Ω) :=
  if ¬ cfg.deadIter ≤ cfg.maxIter then .error .assertion else
  let e : Eda R σ Ω :=
    { sizeGen := cfg.sizeGen, maxIter := cfg.maxIter, deadIter := cfg.deadIter
      truncLen := selLen fl cfg.sizeGen cfg.alpha
      eliteLen := selLen fl cfg.sizeGen cfg.eliteFactor
      parallel := cfg.parallel
      initGen := initSample
      mkNoise := mkNoise
      updatePm := learn
      sample := sample }
  match cfg.initData with
  | none => .ok e
  | some data =>
    if data.cols = cfg.nVars then .ok { e with initGen := fun _ => .ok data }
    else .error .assertion

/-- eda.py:176-188 for numeric individuals. -/
def numNoise [FloorRing K] (fl : K → K) (cfg : BaseCfg K (List K)) (ω : Draws K) :
    Except PyErr (Gen (List K) → Except PyErr (Gen (List K))) :=
  match mkWhiteNoise cfg.noiseAttr (selLen fl cfg.sizeGen cfg.alpha) cfg.nVars ω with
  | .error err => .error err
  | .ok nz => .ok (addNoise nz)

/-- eda.py:24-78: the constructor, for numeric individuals. -/
def mkEda [FloorRing K] {σ : Type} (fl : K → K) (cfg : BaseCfg K (List K))
    (initSample : Draws K → Except PyErr (Gen (List K)))
    (learn : σ → Gen (List K) → Gen (List K) → Draws K → Except PyErr σ)
    (sample : σ → Draws K → Except PyErr (Gen (List K))) :
    Except PyErr (Eda (List K) σ (Draws K)) :=
  mkEdaG fl cfg (numNoise fl cfg) initSample learn sample

end Verif
