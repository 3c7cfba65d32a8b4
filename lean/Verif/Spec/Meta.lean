/-
Vocabulary for properties that compare two runs.
-/
import Verif.Model.Core

namespace Verif.Spec

variable {R C D σ : Type}

/-- The individuals passed to the cost function, generation by generation. -/
def asked (log : List (List (R × C))) : List (List R) := log.map (List.map Prod.fst)

/-- Two runs do the same search with costs renamed by `φ`: they raise the same exception, or both
return, with the same best individual and number of evaluations, with `φ` of the best cost and of the
history, having evaluated the same individuals in the same order. -/
def SameSearch (φ : C → D) (out : Except PyErr (EdaResult R C × St R C σ))
    (out' : Except PyErr (EdaResult R D × St R D σ)) : Prop :=
  match out, out' with
  | .error err, .error err' => err = err'
  | .ok (res, s), .ok (res', s') =>
      res'.bestInd = res.bestInd ∧ res'.nFev = res.nFev ∧ res'.bestCost = φ res.bestCost ∧
        res'.history = res.history.map φ ∧ asked s'.log = asked s.log
  | _, _ => False

end Verif.Spec
