/-
Specification for C52.
-/
import Verif.Model.Heap

namespace Verif.Spec

variable {R C σ : Type}

/-- No array that existed before has changed. -/
def Untouched (before after : Heap R) : Prop := ∀ a < before.length, after[a]? = before[a]?

/-- The value seen through a reference to the best individual. -/
def valueOf (h : Heap R) : BestRef → Option (BestInd R)
  | .index i => some (.index i)
  | .view a i => (h[a]?.bind (fun g => g.rows[i]?)).map .row

/-- The references of `hs`, followed in the memory `h`, give the values of `s`. -/
structure Shows (h : Heap R) (hs : HSt C R σ) (s : St R C σ) : Prop where
  gen : h[hs.gen]? = some s.gen
  elite : h[hs.elite]? = some s.elite
  best : valueOf h hs.bestInd = some s.bestInd
  evals : hs.evals = s.evals
  evalsElite : hs.evalsElite = s.evalsElite
  bestCost : hs.bestCost = s.bestCost
  pm : hs.pm = s.pm
  history : hs.history = s.history
  notBetter : hs.notBetter = s.notBetter
  log : hs.log = s.log

end Verif.Spec
