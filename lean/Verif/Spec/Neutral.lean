/-
Vocabulary for a variable that the cost function ignores.
-/
import Verif.Model.Core
import Verif.Model.Base
import Mathlib.Data.Real.Basic

namespace Verif

namespace Spec

/-- Two individuals that differ at most in variable `j`. -/
def AgreeOff {K : Type} (j : ℕ) (r r' : List K) : Prop := ∀ k, k ≠ j → r[k]? = r'[k]?

/-- The cost of an individual of `n` values does not depend on variable `j`. -/
def Ignores {K C : Type} (n j : ℕ) (f : ℕ → List K → C) : Prop :=
  ∀ k r r', r.length = n → r'.length = n → AgreeOff j r r' → f k r' = f k r

/-- The run uses the number `u (t, i)` for variable `j` of individual `i` in iteration `t`, and the
given draws elsewhere. -/
def withColumn (ρ : Rand (Draws ℝ)) (j : ℕ) (u : ℕ × ℕ → ℝ) : Rand (Draws ℝ) :=
  { ρ with sample := fun t i k => if k = j then u (t, i) else ρ.sample t i k }

end Spec

end Verif
