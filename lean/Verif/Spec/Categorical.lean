/-
Specification vocabulary for categorical variables.
-/
import Mathlib.Data.List.Basic
import Mathlib.Data.List.Count
import Mathlib.Algebra.Order.Field.Basic
import Mathlib.Algebra.BigOperators.Group.List.Basic

namespace Verif.Spec

variable {K β : Type} [Field K] [LinearOrder K] [DecidableEq β]

/-- `t` is the empirical distribution of the column: one entry for each observed value (and no
other), with the fraction of the rows that have this value. -/
structure IsEmpirical (col : List β) (t : List (β × K)) : Prop where
  distinct : (t.map Prod.fst).Nodup
  observed : ∀ v, v ∈ t.map Prod.fst ↔ v ∈ col
  freq : ∀ v p, (v, p) ∈ t → p * (col.length : K) = ((col.filter (fun w => w = v)).length : K)

/-- The values of column `j`. -/
def column (rows : List (List β)) (j : ℕ) : List β := rows.filterMap (fun r => r[j]?)

/-- Value `v` occurs in column `j` of no row. -/
def AbsentAt (j : ℕ) (v : β) (rows : List (List β)) : Prop := ∀ r ∈ rows, r[j]? ≠ some v

end Verif.Spec
