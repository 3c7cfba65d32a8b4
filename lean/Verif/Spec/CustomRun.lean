/-
Specification vocabulary for C90: two objects with the same settings, two runs that agree.
-/
import Verif.Model.Custom

namespace Verif.Spec

variable {S L K R C σ τ : Type}

/-- An `EDACustom` object and the arguments of the constructor of a ready-made algorithm agree; the
arguments that `EDACustom` does not have are left at their defaults (`parallelize=False`,
`init_data=None`, `w_noise=.5`). -/
structure SameSettings [DivisionRing K] (o : Custom S L K) (cfg : BaseCfg K (List K)) : Prop where
  sizeGen : cfg.sizeGen = o.sizeGen
  maxIter : cfg.maxIter = o.maxIter
  deadIter : cfg.deadIter = o.deadIter
  nVars : cfg.nVars = o.slots.nVars
  alpha : cfg.alpha = o.alpha
  eliteFactor : cfg.eliteFactor = o.eliteFactor
  parallel : cfg.parallel = false
  initData : cfg.initData = none
  wNoise : cfg.wNoise = some (1 / 2)

/-- Two runs agree: both raise the same exception, or both return the same result, have called the
cost function on the same individuals in the same order with the same answers, and leave the same
generation, elite and (up to `ι`) model behind. -/
def SameRun (ι : σ → τ) (x : Except PyErr (EdaResult R C × St R C σ))
    (y : Except PyErr (EdaResult R C × St R C τ)) : Prop :=
  match x, y with
  | .error err, .error err' => err = err'
  | .ok (r, s), .ok (r', s') => r' = r ∧ s'.log = s.log ∧ s'.gen = s.gen ∧ s'.evals = s.evals ∧
      s'.elite = s.elite ∧ s'.evalsElite = s.evalsElite ∧ s'.pm = ι s.pm
  | _, _ => False

end Verif.Spec
