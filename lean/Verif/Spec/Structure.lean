/-
What a list of arcs says about the variables of a random generation.
-/
import Verif.Spec.Law
import Mathlib.Logic.Relation

namespace Verif.Spec

open MeasureTheory ProbabilityTheory

/-- Two nodes with a common ancestor; every node is an ancestor of itself. -/
def Linked {L : Type} (arcs : List (L × L)) (i j : L) : Prop :=
  ∃ a, Relation.ReflTransGen (fun x y => (x, y) ∈ arcs) a i ∧
    Relation.ReflTransGen (fun x y => (x, y) ∈ arcs) a j

/-- With probability 1 the sampler returns `size` individuals of `n` values, and the values of two
variables that are not linked by the arcs are independent.  Variable `j` is called `name j`. -/
def StructureHolds {Ω V L : Type} [MeasurableSpace Ω] [MeasurableSpace V] (P : Measure Ω) (size n : ℕ)
    (draw : Ω → Except PyErr (Gen (List V))) (name : ℕ → L) (arcs : List (L × L)) : Prop :=
  ∃ X : Fin size × Fin n → Ω → V,
    (∀ᵐ ω ∂P, ∃ g, draw ω = .ok g ∧ g.cols = n ∧ g.rows.length = size ∧
      ∀ i : Fin size, ∃ r, g.rows[i]? = some r ∧ r.length = n ∧ ∀ j : Fin n, r[j]? = some (X (i, j) ω)) ∧
    ∀ (i : Fin size) (j k : Fin n), ¬ Linked arcs (name j) (name k) → IndepFun (X (i, j)) (X (i, k)) P

end Verif.Spec
