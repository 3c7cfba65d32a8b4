/-
Specification for C50 and C94: the parameters of the constructors.
-/
import Verif.Model.Settings

namespace Verif.Spec

variable {K : Type} [Field K] [LinearOrder K]

/-- The parameters that every call has to give. -/
def required : Algo → List String
  | .umdacat | .ebna | .boa =>
    ["size_gen", "max_iter", "dead_iter", "n_variables", "possible_values", "frequency"]
  | .ukeda => ["size_gen", "max_iter", "dead_iter", "n_variables", "lower_bound", "upper_bound"]
  | _ => ["size_gen", "max_iter", "dead_iter", "n_variables"]

/-- The algorithms for continuous variables. -/
def continuousAlgo : Algo → Bool
  | .umdac | .pbil | .ukeda | .egna | .emna | .speda | .mkeda => true
  | _ => false

/-- The value of a parameter that is not given (`none`: there is no such parameter, or it is required). -/
def defaultArg (c : Algo) (key : String) : Option (Arg K) :=
  match key with
  | "alpha" => some (.num (1/2))
  | "elite_factor" => if c = .speda ∨ c = .mkeda then none else some (.num (2/5))
  | "disp" => some (.bool true)
  | "parallelize" => some (.bool false)
  | "init_data" => some .none
  | "w_noise" => if continuousAlgo c then some (.num (1/2)) else none
  | "lower_bound" =>
    if c = .umdad then some (.num (1/5)) else if continuousAlgo c ∧ c ≠ .ukeda then some .none else none
  | "upper_bound" =>
    if c = .umdad then some (.num (4/5)) else if continuousAlgo c ∧ c ≠ .ukeda then some .none else none
  | "vector" => if c = .umdad ∨ c = .umdac ∨ c = .pbil then some .none else none
  | "lower_factor" => if c = .umdac ∨ c = .pbil ∨ c = .emna then some (.num (1/2)) else none
  | "upper_factor" => if c = .emna then some (.int 100) else none
  | "black_list" => if c = .egna ∨ c = .speda ∨ c = .mkeda then some .none else none
  | "white_list" => if c = .egna ∨ c = .speda ∨ c = .mkeda then some .none else none
  | "l" => if c = .speda ∨ c = .mkeda then some (.int 10) else none
  | _ => none

/-- The value the caller gave to a parameter: the keyword argument, or else the default. -/
def given (c : Algo) (kw : Kwargs K) (key : String) : Option (Arg K) :=
  match kw.lookup key with
  | some v => some v
  | none => defaultArg c key

/-- The eight documented settings. -/
def settingKeys : List String :=
  ["size_gen", "max_iter", "dead_iter", "n_variables", "alpha", "elite_factor", "disp", "parallelize"]

end Verif.Spec
