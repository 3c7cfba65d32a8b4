/-
Objects that already ran: which models can be found in the object before a new run.
-/
import Verif.Lemmas.Run

namespace Verif

variable {R C σ Ω : Type} [PyCost C]

/-- Models that an object constructed with model `pm0` can hold after any history of runs
(complete or interrupted by an exception), with any cost functions and draws: the model only
changes by successful updates. -/
inductive Reused (e : Eda R σ Ω) (pm0 : σ) : σ → Prop
  | fresh : Reused e pm0 pm0
  | learned {pm pm' : σ} {g el : Gen R} {ω : Ω} : Reused e pm0 pm →
      e.updatePm pm g el ω = .ok pm' → Reused e pm0 pm'

/-- The model after a run is one of them. -/
theorem reused_after_run {env : Env C} {e : Eda R σ Ω} {f : ℕ → R → C} {ftol : C} {pm0 pm : σ}
    {ρ : Rand Ω} {res : EdaResult R C} {s : St R C σ} (hp : Reused e pm0 pm)
    (h : minimize env e f ftol pm ρ = .ok (res, s)) : Reused e pm0 s.pm := by
  refine minimize_inv (fun s => Reused e pm0 s.pm) ?_ ?_ h
  · intro s0 h0
    obtain ⟨_, _, _, _, _, hs⟩ := start_ok h0
    rw [hs.pm]; exact hp
  · intro noise t s s' b hi _ hst
    obtain ⟨_, _, _, _, _, _, hs⟩ := step_ok hst
    exact hi.learned hs.update

/-- If updates keep `key` and depend on the old model only through `key`, then every run of a
reused object returns what a fresh object returns, with the same calls of the cost function. -/
theorem rerun_eq_fresh {env : Env C} {e : Eda R σ Ω} {κ : Type} (key : σ → κ)
    (hkeep : ∀ a g el ω a', e.updatePm a g el ω = .ok a' → key a' = key a)
    (hdep : ∀ a b g el ω, key a = key b → e.updatePm a g el ω = e.updatePm b g el ω)
    {f : ℕ → R → C} {ftol : C} {pm0 pm : σ} {ρ : Rand Ω} (hp : Reused e pm0 pm) :
    (minimize env e f ftol pm ρ).map (fun x => (x.1, x.2.log)) =
      (minimize env e f ftol pm0 ρ).map (fun x => (x.1, x.2.log)) := by
  have hk : key pm = key pm0 := by
    induction hp with
    | fresh => rfl
    | learned _ hu ih => rw [hkeep _ _ _ _ _ hu, ih]
  exact minimize_pm_irrelevant (Rel := fun a b => key a = key b)
    (fun a b g el t h => hdep a b g el _ h) hk

end Verif
