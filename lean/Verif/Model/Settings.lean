/-
Model of the calls of the constructors with keyword arguments, and of `export_settings` (eda.py:130-146).
-/
import Verif.Model.Gauss
import Verif.Model.UniBin

namespace Verif

/-- Values of keyword arguments: `None`, integers, other numbers, booleans, Python lists of numbers,
one-dimensional arrays of numbers, and anything else. -/
inductive Arg (K : Type) where
  | none
  | int (z : ℤ)
  | num (x : K)
  | bool (b : Bool)
  | list (l : List K)
  | array (l : List K)
  | other (tag : ℕ)

/-- The algorithms with settings of eda.py:130-146 (`EDACustom` has its own, see
`Verif/Model/Custom.lean`). -/
inductive Algo where
  | umdad | umdac | pbil | umdacat | ukeda | ebna | boa | egna | emna | speda | mkeda
  deriving DecidableEq, Repr

/-- A signature: the names of the parameters and their defaults (`none`: required). -/
abbrev Sig (K : Type) := List (String × Option (Arg K))

section settings

variable {K : Type} [Field K] [LinearOrder K]

/-- The four parameters every constructor begins with. -/
def sigHead : Sig K :=
  [("size_gen", none), ("max_iter", none), ("dead_iter", none), ("n_variables", none)]

/-- The signatures of umda_binary.py:49-61, umda_continuous.py:56-70, pbil.py:55-69,
umda_categorical.py:62-73, univariate/keda.py:44-56, ebna.py:68-79, boa.py:67-78, egna.py:49-63,
emna.py:48-62, speda.py:52-66, multivariate/keda.py:46-60.  Literal floats are exact numbers. -/
def Algo.sig : Algo → Sig K
  | .umdad => sigHead ++
    [("alpha", some (.num (1/2))), ("vector", some .none), ("lower_bound", some (.num (1/5))),
     ("upper_bound", some (.num (4/5))), ("elite_factor", some (.num (2/5))), ("disp", some (.bool true)),
     ("parallelize", some (.bool false)), ("init_data", some .none)]
  | .umdac => sigHead ++
    [("lower_bound", some .none), ("upper_bound", some .none), ("alpha", some (.num (1/2))),
     ("vector", some .none), ("lower_factor", some (.num (1/2))), ("elite_factor", some (.num (2/5))),
     ("disp", some (.bool true)), ("parallelize", some (.bool false)), ("init_data", some .none),
     ("w_noise", some (.num (1/2)))]
  | .pbil => sigHead ++
    [("lower_bound", some .none), ("upper_bound", some .none), ("alpha", some (.num (1/2))),
     ("vector", some .none), ("lower_factor", some (.num (1/2))), ("elite_factor", some (.num (2/5))),
     ("disp", some (.bool true)), ("parallelize", some (.bool false)), ("init_data", some .none),
     ("w_noise", some (.num (1/2)))]
  | .umdacat => sigHead ++
    [("possible_values", none), ("frequency", none), ("alpha", some (.num (1/2))),
     ("elite_factor", some (.num (2/5))), ("disp", some (.bool true)),
     ("parallelize", some (.bool false)), ("init_data", some .none)]
  | .ukeda => sigHead ++
    [("lower_bound", none), ("upper_bound", none), ("alpha", some (.num (1/2))),
     ("elite_factor", some (.num (2/5))), ("disp", some (.bool true)),
     ("parallelize", some (.bool false)), ("init_data", some .none), ("w_noise", some (.num (1/2)))]
  | .ebna => sigHead ++
    [("possible_values", none), ("frequency", none), ("alpha", some (.num (1/2))),
     ("elite_factor", some (.num (2/5))), ("disp", some (.bool true)),
     ("parallelize", some (.bool false)), ("init_data", some .none)]
  | .boa => sigHead ++
    [("possible_values", none), ("frequency", none), ("alpha", some (.num (1/2))),
     ("elite_factor", some (.num (2/5))), ("disp", some (.bool true)),
     ("parallelize", some (.bool false)), ("init_data", some .none)]
  | .egna => sigHead ++
    [("lower_bound", some .none), ("upper_bound", some .none), ("alpha", some (.num (1/2))),
     ("elite_factor", some (.num (2/5))), ("disp", some (.bool true)), ("black_list", some .none),
     ("white_list", some .none), ("parallelize", some (.bool false)), ("init_data", some .none),
     ("w_noise", some (.num (1/2)))]
  | .emna => sigHead ++
    [("lower_bound", some .none), ("upper_bound", some .none), ("alpha", some (.num (1/2))),
     ("elite_factor", some (.num (2/5))), ("disp", some (.bool true)),
     ("lower_factor", some (.num (1/2))), ("upper_factor", some (.int 100)),
     ("parallelize", some (.bool false)), ("init_data", some .none), ("w_noise", some (.num (1/2)))]
  | .speda => sigHead ++
    [("lower_bound", some .none), ("upper_bound", some .none), ("l", some (.int 10)),
     ("alpha", some (.num (1/2))), ("disp", some (.bool true)), ("black_list", some .none),
     ("white_list", some .none), ("parallelize", some (.bool false)), ("init_data", some .none),
     ("w_noise", some (.num (1/2)))]
  | .mkeda => sigHead ++
    [("lower_bound", some .none), ("upper_bound", some .none), ("l", some (.int 10)),
     ("alpha", some (.num (1/2))), ("disp", some (.bool true)), ("black_list", some .none),
     ("white_list", some .none), ("parallelize", some (.bool false)), ("init_data", some .none),
     ("w_noise", some (.num (1/2)))]

/-- A dictionary of keyword arguments. -/
abbrev Kwargs (K : Type) := List (String × Arg K)

/-- Python's binding of keyword arguments to parameters: an unexpected or a missing argument is a
`TypeError`; defaults fill the rest. -/
def bindArgs (sig : Sig K) (kw : Kwargs K) : Except PyErr (String → Option (Arg K)) :=
  if kw.any (fun kv => (sig.lookup kv.1).isNone) then .error .typeError
  else if sig.any (fun p => p.2.isNone && (kw.lookup p.1).isNone) then .error .typeError
  else .ok (fun key =>
    match sig.lookup key with
    | none => none
    | some d => match kw.lookup key with
      | some v => some v
      | none => d)

/-- Where the value of a keyword argument of `super().__init__(...)` comes from. -/
inductive Src (K : Type) where
  | param (name : String)
  | const (v : Arg K)

/-- The arguments all constructors pass on unchanged. -/
def passed : List (String × Src K) :=
  [("size_gen", .param "size_gen"), ("max_iter", .param "max_iter"), ("dead_iter", .param "dead_iter"),
   ("n_variables", .param "n_variables"), ("disp", .param "disp"),
   ("parallelize", .param "parallelize"), ("init_data", .param "init_data")]

/-- The calls of `super().__init__`: umda_binary.py:78-80, umda_continuous.py:96-98, pbil.py:95-97,
umda_categorical.py:89-91, univariate/keda.py:79-81, ebna.py:95-97, boa.py:94-96, egna.py:83-85,
emna.py:83-85, speda.py:90-92, multivariate/keda.py:85-87. -/
def Algo.superCall : Algo → List (String × Src K)
  | .umdad => passed ++ [("alpha", .param "alpha"), ("elite_factor", .param "elite_factor"),
      ("w_noise", .const (.int 0))]
  | .pbil => passed ++ [("alpha", .const (.int 1)), ("elite_factor", .param "elite_factor"),
      ("w_noise", .param "w_noise")]
  | .umdacat | .ebna | .boa => passed ++ [("alpha", .param "alpha"),
      ("elite_factor", .param "elite_factor"), ("w_noise", .const (.int (-1)))]
  | .umdac | .ukeda | .egna | .emna => passed ++ [("alpha", .param "alpha"),
      ("elite_factor", .param "elite_factor"), ("w_noise", .param "w_noise")]
  | .speda | .mkeda => passed ++ [("alpha", .param "alpha"), ("elite_factor", .param "alpha"),
      ("w_noise", .param "w_noise")]

/-- The value of an argument of `super().__init__`. -/
def Algo.superArg (c : Algo) (b : String → Option (Arg K)) (key : String) : Option (Arg K) :=
  match (c.superCall (K := K)).lookup key with
  | some (.param p) => b p
  | some (.const v) => some v
  | none => none

/-- The attributes set by `EDA.__init__` that `export_settings` reads, and `w_noise`. -/
structure Attrs (K : Type) where
  sizeGen : Arg K
  maxIter : Arg K
  deadIter : Arg K
  nVars : Arg K
  alpha : Arg K
  eliteFactor : Arg K
  disp : Arg K
  parallelize : Arg K
  wNoise : Arg K

/-- eda.py:37-57: the attributes; `dead_iter <= max_iter` is asserted (both integers; other values are
not modelled). -/
def edaInit (g : String → Option (Arg K)) : Except PyErr (Attrs K) :=
  match g "size_gen", g "max_iter", g "dead_iter", g "n_variables", g "alpha", g "elite_factor",
    g "disp", g "parallelize", g "w_noise" with
  | some size, some (.int mx), some (.int dead), some n, some alpha, some elite, some disp, some par,
    some w =>
    if ¬ dead ≤ mx then .error .assertion
    else .ok { sizeGen := size, maxIter := .int mx, deadIter := .int dead, nVars := n, alpha := alpha
               eliteFactor := elite, disp := disp, parallelize := par, wNoise := w }
  | _, _, _, _, _, _, _, _, _ => .error .notModelled

/-- A constructed algorithm: the attributes and the bound arguments (from which the constructor sets
further attributes, e.g. `self.parameter = alpha` in pbil.py:100). -/
structure AlgoObj (K : Type) where
  cls : Algo
  attrs : Attrs K
  args : String → Option (Arg K)

/-- eda.py:130-146 `export_settings`. -/
def AlgoObj.exportSettings (o : AlgoObj K) : Kwargs K :=
  [("size_gen", o.attrs.sizeGen), ("max_iter", o.attrs.maxIter), ("dead_iter", o.attrs.deadIter),
   ("n_variables", o.attrs.nVars), ("alpha", o.attrs.alpha), ("elite_factor", o.attrs.eliteFactor),
   ("disp", o.attrs.disp), ("parallelize", o.attrs.parallelize)]

/-- A bound argument. -/
def Arg.toBound : Arg K → Option (Bound K)
  | .none => some .none
  | .int z => some (.scalar z)
  | .num x => some (.scalar x)
  | .list l => some (.list l)
  | .array l => some (.array l)
  | .bool _ => Option.none
  | .other _ => Option.none

/-- The part of the constructors after `super().__init__`, as far as it can raise: the assertion of
`UniBin` (umda_binary.py:88), the checks of `UniformGenInit` (umda_continuous.py:104, pbil.py:106,
egna.py:90, emna.py:91).  Every other case is left to the parameter `other`. -/
def restInit (other : Algo → (String → Option (Arg K)) → Except PyErr Unit) (c : Algo)
    (b : String → Option (Arg K)) : Except PyErr Unit :=
  match c, b "n_variables", b "lower_bound", b "upper_bound", b "vector" with
  | .umdad, some (.int (.ofNat n)), some (.num lb), some (.num ub), some .none =>
    (UniBin.new n ub lb).map (fun _ => ())
  | .umdac, some (.int (.ofNat n)), some lb, some ub, some .none
  | .pbil, some (.int (.ofNat n)), some lb, some ub, some .none
  | .egna, some (.int (.ofNat n)), some lb, some ub, none
  | .emna, some (.int (.ofNat n)), some lb, some ub, none =>
    match lb.toBound, ub.toBound with
    | some lb, some ub => (UniformInit.new n lb ub).map (fun _ => ())
    | _, _ => other c b
  | _, _, _, _, _ => other c b

/-- A call `Cls(**kwargs)`. -/
def construct (other : Algo → (String → Option (Arg K)) → Except PyErr Unit) (c : Algo)
    (kw : Kwargs K) : Except PyErr (AlgoObj K) :=
  match bindArgs c.sig kw with
  | .error err => .error err
  | .ok b =>
    match edaInit (c.superArg b) with
    | .error err => .error err
    | .ok a =>
      match restInit other c b with
      | .error err => .error err
      | .ok _ => .ok { cls := c, attrs := a, args := b }

/-- `result.settings` (eda.py:219-220): `minimize` does not assign any of the eight attributes. -/
def AlgoObj.resultSettings {X : Type} (o : AlgoObj K) (run : Except PyErr X) :
    Except PyErr (X × Kwargs K) :=
  run.map (fun x => (x, o.exportSettings))

end settings

end Verif
