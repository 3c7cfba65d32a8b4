/-
Specification vocabulary for the lines printed during a run, independent of the model of the loop.
-/
import Verif.Model.Output
import Verif.Spec.Core

namespace Verif.Spec

open PyCost

variable {R C : Type} [PyCost C]

/-- The report of one generation: number `t`, and the best cost after the generations `0 … t` of
the history `h`. -/
def IsReport (ftol : C) (h : List C) (t : ℕ) (l : Line R C) : Prop :=
  ∃ c, bestAfter ftol (h.take (t + 1)) = some c ∧ l = .it t c

/-- `out` reports the generations `0, 1, …, k - 1` of the history `h`, one line each, in order. -/
def Reports (ftol : C) (h : List C) (k : ℕ) (out : List (Line R C)) : Prop :=
  out.length = k ∧ ∀ t l, out[t]? = some l → IsReport ftol h t l

/-- The history ends with `d ≥ 1` generations (not counting the first one) that did not improve. -/
def EndsStale (ftol : C) (h : List C) (d : ℤ) : Prop :=
  1 ≤ d ∧ d < h.length ∧ ∀ i : ℕ, (h.length : ℤ) - d ≤ i → i < h.length → NonImproving ftol h i

end Verif.Spec
