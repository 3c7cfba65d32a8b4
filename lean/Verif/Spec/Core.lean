/-
Specification vocabulary for the EDA loop, independent of the model of the loop.
-/
import Verif.Py

namespace Verif.Spec

open PyCost

variable {R C : Type} [PyCost C]

/-- The value `b` is a smallest element of `l` (for Python's `<`). -/
def IsMinOf (b : C) (l : List C) : Prop := b ∈ l ∧ ∀ x ∈ l, lt x b = false

/-- `calls` is a faithful record of the cost function `f`: the value recorded for call number `k`
is what `f` returned at its `k`-th call. -/
def Faithful (f : ℕ → R → C) (calls : List (R × C)) : Prop :=
  ∀ k r c, calls[k]? = some (r, c) → c = f k r

/-- The best cost after having seen the per-generation best costs `h` (first one first), when a
new cost is accepted iff it is smaller than `best * (1 + ftol)`. -/
def bestAfter (ftol : C) : List C → Option C
  | [] => none
  | h :: hs => some (hs.foldl (fun b x => if lt x (mulTol b ftol) then x else b) h)

/-- Generation `i ≥ 1` of the history did not improve on the best cost before it. -/
def NonImproving (ftol : C) (h : List C) (i : ℕ) : Prop :=
  ∃ b x, bestAfter ftol (h.take i) = some b ∧ h[i]? = some x ∧ lt x (mulTol b ftol) = false

/-- `kept` are the `kept.length` best of the `pool`, best first (NaN counts as worst). -/
def IsBestPrefix (pool kept : List (R × C)) : Prop :=
  ∃ rest, (kept ++ rest).Perm pool ∧ (kept ++ rest).Pairwise (fun a b => LeNanLast a.2 b.2)

end Verif.Spec
