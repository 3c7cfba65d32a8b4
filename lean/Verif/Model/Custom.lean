/-
Model of the assignable parts of an `EDA` (eda.py:224-266) and of `EDACustom` with `read_settings`
(custom/eda_custom.py).
-/
import Verif.Model.Archive
import Verif.Model.UniBin

namespace Verif

/-! ### The properties `pm` and `init` -/

/-- What may stand on the right of `eda.pm = value` and `eda.init = value`: an instance of
`ProbabilisticModel`, an instance of `GenInit`, or anything else. -/
inductive PyObj (P I : Type) where
  | model (p : P)
  | init (i : I)
  | other

/-- The attributes `n_variables`, `_pm` and `_init` (eda.py:21-22 and :41). -/
structure Slots (P I : Type) where
  nVars : ℕ
  pm : Option P
  init : Option I

/-- eda.py:234-244: the setter of `pm`.  `len p` is `len(p.variables)`.  Returns the object after the
statement and the exception, if any. -/
def Slots.setPm {P I : Type} (len : P → ℕ) (o : Slots P I) (v : PyObj P I) :
    Slots P I × Option PyErr :=
  match v with
  | .model p =>
    let o := { o with pm := some p }
    if len p ≠ o.nVars then (o, some .exception) else (o, none)
  | _ => (o, some .valueError)

/-- eda.py:256-266: the setter of `init`.  `nv i` is `i.n_variables`. -/
def Slots.setInit {P I : Type} (nv : I → ℕ) (o : Slots P I) (v : PyObj P I) :
    Slots P I × Option PyErr :=
  match v with
  | .init i =>
    let o := { o with init := some i }
    if nv i ≠ o.nVars then (o, some .exception) else (o, none)
  | _ => (o, some .valueError)

/-! ### Models and initializers for numbers -/

/-- The classes of probabilistic_models/__init__.py. -/
inductive PmClass where
  | uniGauss | uniBin | multiGauss | gbn | spbn | kdebn | uniKde | bn | adapt | uniCategorical
  deriving DecidableEq, Repr

/-- The attribute `id`: univariate_gaussian.py:22, univariate_binary.py:27,
multivariate_gaussian.py:30, gaussian_bayesian_network.py:54, semiparametric_bayesian_network.py:37,
kde_bayesian_network.py:38, univariate_kde.py:20, discrete_bayesian_network.py:33,
adaptive_univariate_gaussian.py:29; `UniCategorical` keeps the value of
_probabilistic_model.py:15. -/
def PmClass.id : PmClass → ℤ
  | .uniGauss => 1
  | .uniBin => 2
  | .multiGauss => 3
  | .gbn => 4
  | .spbn => 5
  | .kdebn => 6
  | .uniKde => 7
  | .bn => 7
  | .adapt => 8
  | .uniCategorical => -1

/-- The classes of initialization_models/__init__.py. -/
inductive InitClass where
  | uniGauss | uniBin | multiGauss | uniform | lhs | categorical
  deriving DecidableEq, Repr

/-- The attribute `id`: uni_gauss_geninit.py:47, uni_bin_geninit.py:31, multi_gauss_geninit.py:46,
uniform_geninit.py:39, latin_hypercube_sampling_geninit.py:39, categorical_geninit.py:34. -/
def InitClass.id : InitClass → ℤ
  | .uniGauss => 1
  | .uniBin => 2
  | .multiGauss => 3
  | .uniform => 4
  | .lhs => 5
  | .categorical => 6

/-- The library functions behind the numeric models (see the models themselves); `name` is Python's
`str` on integers, `fl` the rounding of float operations. -/
structure Libs (S L K : Type) where
  fl : K → K
  sq : K → K
  fac : List (List K) → List (List K)
  isPD : List (List K) → Bool
  h2 : ℕ → ℕ → K
  net : NetLib S L K (Draws K)
  name : ℕ → L

/-- A probabilistic model for numeric individuals (the two discrete classes are not included). -/
inductive Pm (S L K : Type) where
  | gauss (b : UniGauss K)
  | adapt (alpha : K) (b : UniGauss K)
  | bin (b : UniBin K)
  | multi (b : MultiGauss K)
  | net (b : BNet S L K)
  | kde (b : UniKDE K)

/-- The class of a model. -/
def Pm.cls {S L K : Type} : Pm S L K → PmClass
  | .gauss _ => .uniGauss
  | .adapt _ _ => .adapt
  | .bin _ => .uniBin
  | .multi _ => .multiGauss
  | .net b => match b.kind with
    | .gaussian => .gbn
    | .semiparametric => .spbn
    | .kde => .kdebn
  | .kde _ => .uniKde

/-- `len(pm.variables)`. -/
def Pm.len {S L K : Type} : Pm S L K → ℕ
  | .gauss b => b.n
  | .adapt _ b => b.n
  | .bin b => b.n
  | .multi b => b.n
  | .net b => b.vars.length
  | .kde b => b.n

/-- An initializer for numeric individuals; `LatinHypercubeSampling` is modelled apart
(`Verif/Model/Lhs.lean`), `CategoricalSampling` in `Verif/Model/Categorical.lean`. -/
inductive Ini (K : Type) where
  | gauss (b : UniGauss K)
  | bin (b : UniBin K)
  | multi (b : MultiGauss K)
  | uniform (u : UniformInit K)

/-- The class of an initializer. -/
def Ini.cls {K : Type} : Ini K → InitClass
  | .gauss _ => .uniGauss
  | .bin _ => .uniBin
  | .multi _ => .multiGauss
  | .uniform _ => .uniform

/-- `init.n_variables`. -/
def Ini.nVars {K : Type} : Ini K → ℕ
  | .gauss b => b.n
  | .bin b => b.n
  | .multi b => b.n
  | .uniform u => u.n

section custom

variable {S L K : Type} [DecidableEq L] [Field K] [LinearOrder K] [FloorRing K]

/-- `self.pm.learn(dataset=self.generation)` (eda.py:128). -/
def Pm.learn (lib : Libs S L K) (p : Pm S L K) (g : Gen (List K)) (ω : Draws K) :
    Except PyErr (Pm S L K) :=
  match p with
  | .gauss b => (b.learn lib.sq g).map .gauss
  | .adapt a b => (b.learnAdapt lib.sq a g).map (.adapt a)
  | .bin b => (b.learn lib.fl g.rows).map .bin
  | .multi b => (b.learn lib.sq g).map .multi
  | .net b => (b.learn lib.net g 10 ω).map .net
  | .kde b => (b.learn lib.isPD lib.h2 g).map .kde

/-- `self.pm.sample(size=self.size_gen)` (eda.py:82). -/
def Pm.sample (lib : Libs S L K) (p : Pm S L K) (size : ℤ) (ω : Draws K) :
    Except PyErr (Gen (List K)) :=
  match p with
  | .gauss b => b.sample size ω
  | .adapt _ b => b.sample size ω
  | .bin b => b.sample size ω
  | .multi b => b.sample lib.fac size ω
  | .net b => b.sample lib.net size ω
  | .kde b => b.sample lib.fac size ω

/-- `self.init.sample(size=self.size_gen)` (eda.py:88). -/
def Ini.sample (lib : Libs S L K) (i : Ini K) (size : ℤ) (ω : Draws K) :
    Except PyErr (Gen (List K)) :=
  match i with
  | .gauss b => b.sample size ω
  | .bin b => b.sample size ω
  | .multi b => b.sample lib.fac size ω
  | .uniform u => u.sample lib.fl size ω

/-! ### `EDACustom` -/

/-- Arguments of `EDACustom.__init__` (eda_custom.py:46-57).  The entries of the tuple `bounds` are
numbers (sequences, which `UniformGenInit` would also accept, are not modelled). -/
structure CustomArgs (K : Type) where
  sizeGen : ℤ
  maxIter : ℤ
  deadIter : ℤ
  nVars : ℕ
  alpha : K
  eliteFactor : K
  disp : Bool
  pm : ℤ
  init : ℤ
  bounds : List K

/-- `bounds[i]`. -/
def boundAt (bounds : List K) (i : ℕ) : Except PyErr K :=
  match bounds[i]? with
  | some x => .ok x
  | none => .error .indexError

/-- eda_custom.py:81-90: the probabilistic model. -/
def customPm (lib : Libs S L K) (a : CustomArgs K) : Except PyErr (Pm S L K) :=
  if a.pm = 1 then (boundAt a.bounds 0).map (fun lo => .gauss (UniGauss.new a.nVars lo))
  else if a.pm = 2 then
    match boundAt a.bounds 0, boundAt a.bounds 1 with
    | .ok lo, .ok up => (UniBin.new a.nVars up lo).map .bin
    | .error err, _ => .error err
    | _, .error err => .error err
  else if a.pm = 3 then
    match boundAt a.bounds 0, boundAt a.bounds 1 with
    | .ok lo, .ok up => .ok (.multi (MultiGauss.new a.nVars lo up))
    | .error err, _ => .error err
    | _, .error err => .error err
  else if a.pm = 4 then
    .ok (.net (BNet.new lib.net .gaussian ((List.range a.nVars).map lib.name) none none))
  else .error .valueError

/-- eda_custom.py:93-102: the initializer; `k` decides the random choices of its constructor. -/
def customInit (a : CustomArgs K) (k : ℕ → ℕ → ℕ) : Except PyErr (Ini K) :=
  if a.init = 1 then
    match boundAt a.bounds 0 with
    | .ok lo => (uniGaussInit a.nVars [] [] lo 100 k).map .gauss
    | .error err => .error err
  else if a.init = 2 then .ok (.bin (uniBinInit a.nVars []))
  else if a.init = 3 then
    match boundAt a.bounds 0, boundAt a.bounds 1 with
    | .ok lo, .ok up => (multiGaussInit a.nVars [] [] lo up k).map .multi
    | .error err, _ => .error err
    | _, .error err => .error err
  else if a.init = 4 then
    match boundAt a.bounds 0, boundAt a.bounds 1 with
    | .ok lo, .ok up => (UniformInit.new a.nVars (.scalar lo) (.scalar up)).map .uniform
    | .error err, _ => .error err
    | _, .error err => .error err
  else .error .valueError

/-- The attributes of an `EDACustom`. -/
structure Custom (S L K : Type) where
  sizeGen : ℤ
  maxIter : ℤ
  deadIter : ℤ
  alpha : K
  eliteFactor : K
  disp : Bool
  bounds : List K
  slots : Slots (Pm S L K) (Ini K)

/-- The random draws of the constructor: choices of the initializer and a first sample, which is
only stored. -/
structure CustomDraws (K : Type) where
  choice : ℕ → ℕ → ℕ
  sample : Draws K

/-- eda_custom.py:46-105 `EDACustom.__init__`.  The setters of `pm` and `init` are called on models of
the right size; the initializer is sampled once. -/
def Custom.new (lib : Libs S L K) (a : CustomArgs K) (ω : CustomDraws K) :
    Except PyErr (Custom S L K) :=
  if ¬ a.deadIter ≤ a.maxIter then .error .assertion else
  match customPm lib a with
  | .error err => .error err
  | .ok p =>
    match Slots.setPm Pm.len { nVars := a.nVars, pm := none, init := none } (.model p) with
    | (_, some err) => .error err
    | (o, none) =>
      match customInit a ω.choice with
      | .error err => .error err
      | .ok i =>
        match o.setInit Ini.nVars (.init i) with
        | (_, some err) => .error err
        | (o, none) =>
          match i.sample lib a.sizeGen ω.sample with
          | .error err => .error err
          | .ok _ => .ok { sizeGen := a.sizeGen, maxIter := a.maxIter, deadIter := a.deadIter
                           alpha := a.alpha, eliteFactor := a.eliteFactor, disp := a.disp
                           bounds := a.bounds, slots := o }

/-- The configuration of `EDA` in an `EDACustom` object (eda_custom.py:76): `parallelize`, `init_data`
and `w_noise` keep their defaults (eda.py:33-35). -/
def Custom.base (o : Custom S L K) : BaseCfg K (List K) :=
  { sizeGen := o.sizeGen, maxIter := o.maxIter, deadIter := o.deadIter, nVars := o.slots.nVars
    alpha := o.alpha, eliteFactor := o.eliteFactor, parallel := false, initData := none
    wNoise := some (1 / 2) }

/-- What `minimize` uses of an `EDACustom` object with models `p` and `i`. -/
def Custom.eda (fl : K → K) (lib : Libs S L K) (o : Custom S L K) (i : Ini K) :
    Except PyErr (Eda (List K) (Pm S L K) (Draws K)) :=
  mkEda fl o.base (fun ω => i.sample lib o.sizeGen ω) (fun p g _ ω => p.learn lib g ω)
    (fun p ω => p.sample lib o.sizeGen ω)

/-- `eda.minimize(cost_function)`: the current model and initializer are used (`None` has neither
`sample` nor `learn`: `AttributeError`, here `exception`). -/
def Custom.minimize {C : Type} [PyCost C] (fl : K → K) (lib : Libs S L K) (env : Env C)
    (o : Custom S L K) (f : ℕ → List K → C) (ftol : C) (ρ : Rand (Draws K)) :
    Except PyErr (EdaResult (List K) C × St (List K) C (Pm S L K)) :=
  match o.slots.init, o.slots.pm with
  | some i, some p =>
    match o.eda fl lib i with
    | .error err => .error err
    | .ok e => Verif.minimize env e f ftol p ρ
  | _, _ => .error .exception

/-! ### Settings -/

/-- Values in a settings dictionary. -/
inductive Val (K : Type) where
  | int (z : ℤ)
  | num (x : K)
  | bool (b : Bool)
  | nums (l : List K)

/-- A Python dictionary with string keys. -/
abbrev Dict (K : Type) := List (String × Val K)

/-- `d[key]`. -/
def Dict.get (d : Dict K) (key : String) : Except PyErr (Val K) :=
  match d.lookup key with
  | some v => .ok v
  | none => .error (.keyError key)

/-- eda_custom.py:107-126 `export_settings`; an attribute of `None` is missing
(`AttributeError`, here `exception`). -/
def Custom.exportSettings (o : Custom S L K) : Except PyErr (Dict K) :=
  match o.slots.pm, o.slots.init with
  | some p, some i => .ok
    [("size_gen", .int o.sizeGen), ("max_iter", .int o.maxIter), ("dead_iter:", .int o.deadIter),
     ("n_variables", .int o.slots.nVars), ("pm", .int p.cls.id), ("init", .int i.cls.id),
     ("alpha", .num o.alpha), ("elite_factor", .num o.eliteFactor), ("disp", .bool o.disp),
     ("bounds", .nums o.bounds)]
  | _, _ => .error .exception

/-- eda_custom.py:129-152 `read_settings`: the keyword arguments are evaluated in order.  Values of
unexpected types are not modelled. -/
def readSettings (lib : Libs S L K) (d : Dict K) (ω : CustomDraws K) :
    Except PyErr (Custom S L K) := do
  let sizeGen ← d.get "size-gen"
  let maxIter ← d.get "max_iter"
  let deadIter ← d.get "dead_iter"
  let nVars ← d.get "n_variables"
  let alpha ← d.get "alpha"
  let eliteFactor ← d.get "elite_factor"
  let disp ← d.get "disp"
  let pm ← d.get "pm"
  let init ← d.get "init"
  let bounds ← d.get "bounds"
  match sizeGen, maxIter, deadIter, nVars, alpha, eliteFactor, disp, pm, init, bounds with
  | .int sizeGen, .int maxIter, .int deadIter, .int (.ofNat nVars), .num alpha, .num eliteFactor,
    .bool disp, .int pm, .int init, .nums bounds =>
    Custom.new lib { sizeGen := sizeGen, maxIter := maxIter, deadIter := deadIter, nVars := nVars
                     alpha := alpha, eliteFactor := eliteFactor, disp := disp, pm := pm
                     init := init, bounds := bounds } ω
  | _, _, _, _, _, _, _, _, _, _ => .error .notModelled

end custom

end Verif
