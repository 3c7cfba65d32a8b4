/-
Specification vocabulary for cost functions that may raise.
-/
import Verif.Py

namespace Verif.Spec

variable {R C : Type}

/-- All these calls (number and individual) returned, with the values of `g`. -/
def Returned (f : ℕ → R → Except PyErr C) (g : ℕ → R → C) (calls : List (ℕ × R)) : Prop :=
  ∀ x ∈ calls, f x.1 x.2 = .ok (g x.1 x.2)

/-- One of these calls raised `err`. -/
def Raised (f : ℕ → R → Except PyErr C) (err : PyErr) (calls : List (ℕ × R)) : Prop :=
  ∃ x ∈ calls, f x.1 x.2 = .error err

end Verif.Spec
