/-
Specification vocabulary for cost functions that change their argument.
-/
import Verif.Model.Core

namespace Verif.Spec

variable {R C σ Ω : Type}

/-- The cost function repairs the individual in place and returns the cost of the repaired one. -/
def repairing (π : R → R) (g : R → C) : ℕ → R → C × R := fun _ r => (g (π r), π r)

/-- The algorithm whose initial individuals and whose samples are repaired before anything else sees
them. -/
def repaired (π : R → R) (e : Eda R σ Ω) : Eda R σ Ω :=
  { e with
    initGen := fun ω => (e.initGen ω).map (fun g => { g with rows := g.rows.map π })
    sample := fun pm ω => (e.sample pm ω).map (fun g => { g with rows := g.rows.map π }) }

/-- What `f` returns when it works on a copy. -/
def onCopy (f : ℕ → R → C × R) : ℕ → R → C := fun k r => (f k r).1

end Verif.Spec
