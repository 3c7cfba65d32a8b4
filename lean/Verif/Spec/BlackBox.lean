/-
What a run has queries the cost function.
-/
import Verif.Model.Core
import Mathlib.Data.Finset.Basic

namespace Verif.Spec

/-- The individuals on which the cost function was called, in order. -/
def queries {R C σ : Type} (s : St R C σ) : List R := s.log.flatten.map Prod.fst

/-- The two cost functions give the same answers to the first `N` questions of `q`. -/
def SameAnswers {R C : Type} (f f' : ℕ → R → C) (q : List R) (N : ℕ) : Prop :=
  ∀ j < N, ∀ r, q[j]? = some r → f j r = f' j r

/-- The elements of a list in the order of their first occurrence. -/
def firsts {R : Type} [DecidableEq R] (l : List R) : List R :=
  l.foldl (fun acc x => if x ∈ acc then acc else acc ++ [x]) []

/-- A cost function on the finite set `X` with values in the finite set `Y`; outside `X` (where it is not
called) it is `d`. -/
def extend {R C : Type} [DecidableEq R] {X : Finset R} {Y : Finset C} (d : C) (φ : X → Y) (r : R) : C :=
  if h : r ∈ X then φ ⟨r, h⟩ else d

end Verif.Spec
