/-
Runs of two objects that differ only in how their probabilistic models are represented.
-/
import Verif.Model.Core

namespace Verif

open PyCost

variable {R C σ τ Ω : Type}

/-- The state with another representation of the model. -/
def St.withPm (ι : σ → τ) (s : St R C σ) : St R C τ :=
  { gen := s.gen, evals := s.evals, elite := s.elite, evalsElite := s.evalsElite
    bestCost := s.bestCost, bestInd := s.bestInd, pm := ι s.pm, history := s.history
    notBetter := s.notBetter, log := s.log }

/-- `e'` does with `ι m` what `e` does with `m`. -/
structure Embeds (ι : σ → τ) (e : Eda R σ Ω) (e' : Eda R τ Ω) : Prop where
  sizeGen : e'.sizeGen = e.sizeGen
  maxIter : e'.maxIter = e.maxIter
  deadIter : e'.deadIter = e.deadIter
  truncLen : e'.truncLen = e.truncLen
  eliteLen : e'.eliteLen = e.eliteLen
  parallel : e'.parallel = e.parallel
  init : ∀ ω, e'.initGen ω = e.initGen ω
  noise : ∀ ω, e'.mkNoise ω = e.mkNoise ω
  learn : ∀ m g el ω, e'.updatePm (ι m) g el ω = (e.updatePm m g el ω).map ι
  sample : ∀ m ω, e'.sample (ι m) ω = e.sample m ω

variable [PyCost C] {env : Env C} {f : ℕ → R → C} {ftol : C} {ρ : Rand Ω} {ι : σ → τ}
variable {e : Eda R σ Ω} {e' : Eda R τ Ω}

theorem truncation_embed (h : Embeds ι e e') (s : St R C σ) :
    truncation env e' (s.withPm ι) = (truncation env e s).map (St.withPm ι) := by
  unfold truncation
  simp only [St.withPm, h.truncLen, h.eliteLen]
  cases s.gen.concat s.elite <;> rfl

theorem start_embed (h : Embeds ι e e') (m : σ) :
    start env e' f (ι m) ρ = (start env e f m ρ).map (St.withPm ι) := by
  unfold start
  rw [h.init, h.parallel]
  cases e.initGen ρ.init with
  | error err => rfl
  | ok gen =>
    dsimp only
    cases checkGeneration env e.parallel f 0 gen.rows with
    | error err => rfl
    | ok x =>
      obtain ⟨calls, evals⟩ := x
      dsimp only
      cases gen.rows with
      | nil => rfl
      | cons r0 rs =>
        cases evals with
        | nil => rfl
        | cons c0 cs =>
          dsimp only
          cases pyMin (c0 :: cs) with
          | none => rfl
          | some best =>
            dsimp only
            cases whereFirst (c0 :: cs) best <;> rfl

theorem step_embed (h : Embeds ι e e') (noise : Gen R → Except PyErr (Gen R)) (t : ℕ) (s : St R C σ) :
    step env e' f ftol ρ noise t (s.withPm ι) =
      (step env e f ftol ρ noise t s).map (fun x => (x.1.withPm ι, x.2)) := by
  unfold step
  rw [truncation_embed h]
  cases truncation env e s with
  | error err => rfl
  | ok s1 =>
    simp only [Except.map]
    have h1 : (s1.withPm ι).gen = s1.gen := rfl
    rw [h1]
    cases noise s1.gen with
    | error err => rfl
    | ok noisy =>
      dsimp only
      have h2 : (s1.withPm ι).pm = ι s1.pm := rfl
      have h3 : (s1.withPm ι).elite = s1.elite := rfl
      rw [h2, h3, h.learn]
      cases e.updatePm s1.pm noisy s1.elite (ρ.learn t) with
      | error err => rfl
      | ok pm =>
        simp only [Except.map]
        rw [h.sample]
        cases e.sample pm (ρ.sample t) with
        | error err => rfl
        | ok gen =>
          dsimp only
          have h4 : (s1.withPm ι).log = s1.log := rfl
          rw [h4, h.parallel]
          cases checkGeneration env e.parallel f s1.log.flatten.length gen.rows with
          | error err => rfl
          | ok x =>
            obtain ⟨calls, evals⟩ := x
            dsimp only
            cases pyMin evals with
            | none => rfl
            | some best =>
              dsimp only
              cases whereFirst evals best with
              | none => rfl
              | some i =>
                dsimp only
                cases gen.rows[i]? with
                | none => rfl
                | some ind =>
                  dsimp only
                  have h5 : (s1.withPm ι).bestCost = s1.bestCost := rfl
                  have h6 : (s1.withPm ι).notBetter = s1.notBetter := rfl
                  rw [h5, h6, h.deadIter]
                  split <;> rfl

theorem loop_embed (h : Embeds ι e e') (noise : Gen R → Except PyErr (Gen R)) :
    ∀ (n t : ℕ) (s : St R C σ), loop env e' f ftol ρ noise n t (s.withPm ι) =
      (loop env e f ftol ρ noise n t s).map (St.withPm ι)
  | 0, _, _ => rfl
  | n + 1, t, s => by
    unfold loop
    rw [step_embed h]
    cases step env e f ftol ρ noise t s with
    | error err => rfl
    | ok x =>
      obtain ⟨s', b⟩ := x
      cases b with
      | true => rfl
      | false => exact loop_embed h noise n (t + 1) s'

/-- The whole run: the same result or exception, the same state apart from the representation of the
model. -/
theorem minimize_embed (h : Embeds ι e e') (m : σ) :
    minimize env e' f ftol (ι m) ρ =
      (minimize env e f ftol m ρ).map (fun x => (x.1, x.2.withPm ι)) := by
  unfold minimize
  rw [start_embed h]
  cases start env e f m ρ with
  | error err => rfl
  | ok s0 =>
    simp only [Except.map]
    rw [h.noise]
    cases e.mkNoise ρ.noise with
    | error err => rfl
    | ok noise =>
      dsimp only
      rw [loop_embed h, h.maxIter]
      cases loop env e f ftol ρ noise (e.maxIter - 1).toNat 1 s0 with
      | error err => rfl
      | ok s =>
        simp only [Except.map, h.sizeGen]
        rfl

end Verif
