/-
A run with transformed costs: if a map of the costs preserves all comparisons that `minimize` makes, the
run with the mapped cost function is the mapped run.
-/
import Verif.Lemmas.Core

namespace Verif

open PyCost

set_option linter.unusedSectionVars false

variable {R C D σ Ω : Type} [PyCost C] [PyCost D]

/-- The map `φ` of costs preserves the comparisons made by `minimize` with the two tolerances, and
storing costs in arrays. -/
structure CostMap (φ : C → D) (ftol : C) (ftol' : D) : Prop where
  lt : ∀ a b, PyCost.lt (φ a) (φ b) = PyCost.lt a b
  eq : ∀ a b, PyCost.eq (φ a) (φ b) = PyCost.eq a b
  tol : ∀ a b, PyCost.lt (φ a) (mulTol (φ b) ftol') = PyCost.lt a (mulTol b ftol)
  cast : ∀ a b, castLike (φ a) (φ b) = φ (castLike a b)

/-- The same machine: the sort decides ties in the same way for mapped costs (it only compares). -/
structure EnvMap (φ : C → D) (env : Env C) (env' : Env D) : Prop where
  argsort : ∀ l, env'.argsort (l.map φ) = env.argsort l
  cpu : env'.cpu = env.cpu
  sched : env'.sched = env.sched

/-- The state with mapped costs. -/
def St.mapCost (φ : C → D) (s : St R C σ) : St R D σ :=
  { gen := s.gen, evals := s.evals.map φ, elite := s.elite, evalsElite := s.evalsElite.map φ
    bestCost := φ s.bestCost, bestInd := s.bestInd, pm := s.pm, history := s.history.map φ
    notBetter := s.notBetter, log := s.log.map (List.map (Prod.map id φ)) }

/-- The result with mapped costs. -/
def EdaResult.mapCost (φ : C → D) (r : EdaResult R C) : EdaResult R D :=
  { bestInd := r.bestInd, bestCost := φ r.bestCost, nFev := r.nFev, history := r.history.map φ }

/-- An evaluation with mapped costs. -/
def Evaluated.mapCost (φ : C → D) (ev : Evaluated R C) : Evaluated R D :=
  { calls := ev.calls.map (Prod.map id φ), stored := ev.stored.map φ }

section
variable {φ : C → D} {ftol : C} {ftol' : D} {env : Env C} {env' : Env D}

theorem pyMin_map (h : CostMap φ ftol ftol') (l : List C) : pyMin (l.map φ) = (pyMin l).map φ := by
  cases l with
  | nil => rfl
  | cons c cs =>
    simp only [pyMin, List.map_cons, Option.map_some, Option.some.injEq]
    induction cs generalizing c with
    | nil => rfl
    | cons x xs ih =>
      simp only [List.map_cons, List.foldl_cons, h.lt]
      rw [← apply_ite φ]
      exact ih _

theorem whereFirst_map (h : CostMap φ ftol ftol') (l : List C) (b : C) :
    whereFirst (l.map φ) (φ b) = whereFirst l b := by
  unfold whereFirst
  rw [List.findIdx?_map]
  congr 1
  funext x
  exact h.eq x b

theorem callRows_map (f : ℕ → R → C) (k : ℕ) (rows : List R) :
    callRows (fun k r => φ (f k r)) k rows = (callRows f k rows).map φ := by
  unfold callRows
  apply List.ext_getElem?
  intro i
  simp [Option.map_map, Function.comp_def]

theorem applyAlong_map (h : CostMap φ ftol ftol') (f : ℕ → R → C) (k : ℕ) (rows : List R) :
    applyAlong (fun k r => φ (f k r)) k rows = (applyAlong f k rows).map (Evaluated.mapCost φ) := by
  unfold applyAlong
  rw [callRows_map]
  cases callRows f k rows with
  | nil => rfl
  | cons c0 cs =>
    simp only [List.map_cons, Except.map, Evaluated.mapCost, List.map_map, Except.ok.injEq,
      Evaluated.mk.injEq]
    refine ⟨?_, ?_⟩
    · rw [← List.map_cons, List.zip_map_right]
    · congr 1
      apply List.map_congr_left
      intro c _
      exact h.cast c0 c

theorem poolMap_map {α β γ : Type} (g : α → β) (k : β → γ) (sched : List ℕ) (xs : List α) :
    poolMap sched (fun x => k (g x)) xs = (poolMap sched g xs).map (List.map k) := by
  have key : ∀ (sched : List ℕ) (s : List (Option β)),
      sched.foldl (poolWrite (fun x => k (g x)) xs) (s.map (Option.map k)) =
        (sched.foldl (poolWrite g xs) s).map (Option.map k) := by
    intro sched
    induction sched with
    | nil => intro s; rfl
    | cons i sched ih =>
      intro s
      simp only [List.foldl_cons]
      rw [← ih]
      congr 1
      unfold poolWrite
      cases xs[i]? with
      | none => rfl
      | some x => simp [List.map_set]
  have hm : ∀ l : List (Option β), (l.map (Option.map k)).mapM id = (l.mapM id).map (List.map k) := by
    intro l
    induction l with
    | nil => rfl
    | cons a l ih =>
      cases a with
      | none => simp
      | some a =>
        simp only [List.map_cons, Option.map_some, List.mapM_cons, id, Option.pure_def,
          Option.bind_eq_bind, Option.bind_some, ih]
        cases l.mapM id <;> simp
  unfold poolMap
  have := key sched (List.replicate xs.length none)
  rw [List.map_replicate, Option.map_none] at this
  rw [this, hm]

theorem mapM_except_map {α β : Type} (k : α → β) (l : List (Except PyErr α)) :
    (l.map (Except.map k)).mapM id = (l.mapM id).map (List.map k) := by
  induction l with
  | nil => rfl
  | cons a l ih =>
    cases a with
    | error err => rfl
    | ok a =>
      simp only [List.map_cons, List.mapM_cons, id, ih, Except.map]
      cases l.mapM id <;> rfl

theorem parallelApply_map (h : CostMap φ ftol ftol') (cpu : ℕ) (sched : List ℕ) (f : ℕ → R → C)
    (k : ℕ) (rows : List R) :
    parallelApply cpu sched (fun k r => φ (f k r)) k rows =
      (parallelApply cpu sched f k rows).map (Evaluated.mapCost φ) := by
  unfold parallelApply
  by_cases hc : cpu = 0
  · simp [hc, Except.map]
  rw [if_neg hc, if_neg hc]
  have : (fun ch : ℕ × List R => applyAlong (fun k r => φ (f k r)) (k + ch.1) ch.2) =
      fun ch => (applyAlong f (k + ch.1) ch.2).map (Evaluated.mapCost φ) := by
    funext ch; exact applyAlong_map h f _ _
  rw [this, poolMap_map]
  cases poolMap sched (fun ch : ℕ × List R => applyAlong f (k + ch.1) ch.2) (arraySplit rows cpu) with
  | none => rfl
  | some rs =>
    simp only [Option.map_some, mapM_except_map]
    cases rs.mapM id with
    | error err => rfl
    | ok rs =>
      simp only [Except.map, Evaluated.mapCost, List.map_map, Except.ok.injEq, Evaluated.mk.injEq,
        List.map_flatten]
      exact ⟨rfl, rfl⟩

theorem checkGeneration_map (h : CostMap φ ftol ftol') (he : EnvMap φ env env') (par : Bool)
    (f : ℕ → R → C) (k : ℕ) (rows : List R) :
    checkGeneration env' par (fun k r => φ (f k r)) k rows =
      (checkGeneration env par f k rows).map (Evaluated.mapCost φ) := by
  unfold checkGeneration
  rw [he.cpu, he.sched]
  cases par with
  | true => exact parallelApply_map h _ _ _ _ _
  | false => exact applyAlong_map h _ _ _

theorem truncation_map (he : EnvMap φ env env') (e : Eda R σ Ω) (s : St R C σ) :
    truncation env' e (s.mapCost φ) = (truncation env e s).map (St.mapCost φ) := by
  unfold truncation
  have e1 : (s.mapCost φ).gen = s.gen := rfl
  have e2 : (s.mapCost φ).elite = s.elite := rfl
  have e3 : (s.mapCost φ).evals ++ (s.mapCost φ).evalsElite = (s.evals ++ s.evalsElite).map φ := by
    simp [St.mapCost]
  rw [e1, e2]
  cases s.gen.concat s.elite with
  | error err => rfl
  | ok g =>
    simp only [e3, he.argsort, takeIdx_map, Except.map]
    rfl

theorem start_map (h : CostMap φ ftol ftol') (he : EnvMap φ env env') (e : Eda R σ Ω)
    (f : ℕ → R → C) (pm : σ) (ρ : Rand Ω) :
    start env' e (fun k r => φ (f k r)) pm ρ = (start env e f pm ρ).map (St.mapCost φ) := by
  unfold start
  cases e.initGen ρ.init with
  | error err => rfl
  | ok gen =>
    simp only [checkGeneration_map h he]
    cases checkGeneration env e.parallel f 0 gen.rows with
    | error err => rfl
    | ok ev =>
      obtain ⟨calls, evals⟩ := ev
      simp only [Except.map, Evaluated.mapCost]
      cases gen.rows with
      | nil => rfl
      | cons r0 rs =>
        cases evals with
        | nil => rfl
        | cons c0 cs =>
          simp only [List.map_cons]
          rw [← List.map_cons, pyMin_map h]
          cases pyMin (c0 :: cs) with
          | none => rfl
          | some best =>
            simp only [Option.map_some, whereFirst_map h]
            cases whereFirst (c0 :: cs) best with
            | none => rfl
            | some i => rfl

theorem step_map (h : CostMap φ ftol ftol') (he : EnvMap φ env env') (e : Eda R σ Ω)
    (f : ℕ → R → C) (ρ : Rand Ω) (noise : Gen R → Except PyErr (Gen R)) (t : ℕ) (s : St R C σ) :
    step env' e (fun k r => φ (f k r)) ftol' ρ noise t (s.mapCost φ) =
      (step env e f ftol ρ noise t s).map (Prod.map (St.mapCost φ) id) := by
  unfold step
  rw [truncation_map he]
  cases truncation env e s with
  | error err => rfl
  | ok s1 =>
    simp only [Except.map]
    have e1 : (s1.mapCost φ).gen = s1.gen := rfl
    have e2 : (s1.mapCost φ).elite = s1.elite := rfl
    have e3 : (s1.mapCost φ).pm = s1.pm := rfl
    have e4 : (s1.mapCost φ).log.flatten.length = s1.log.flatten.length := by
      simp only [St.mapCost, ← List.map_flatten, List.length_map]
    rw [e1, e2, e3, e4]
    cases noise s1.gen with
    | error err => rfl
    | ok noisy =>
    simp only
    cases e.updatePm s1.pm noisy s1.elite (ρ.learn t) with
    | error err => rfl
    | ok pm =>
    simp only
    cases e.sample pm (ρ.sample t) with
    | error err => rfl
    | ok gen =>
    simp only [checkGeneration_map h he]
    cases checkGeneration env e.parallel f s1.log.flatten.length gen.rows with
    | error err => rfl
    | ok ev =>
    obtain ⟨calls, evals⟩ := ev
    simp only [Except.map, Evaluated.mapCost, pyMin_map h]
    cases pyMin evals with
    | none => rfl
    | some best =>
    simp only [Option.map_some, whereFirst_map h]
    cases whereFirst evals best with
    | none => rfl
    | some i =>
    simp only
    cases gen.rows[i]? with
    | none => rfl
    | some ind =>
    simp only
    have e5 : PyCost.lt (φ best) (mulTol (s1.mapCost φ).bestCost ftol') =
        PyCost.lt best (mulTol s1.bestCost ftol) := h.tol best s1.bestCost
    rw [e5]
    by_cases hb : PyCost.lt best (mulTol s1.bestCost ftol) = true
    · rw [if_pos hb, if_pos hb]
      simp [St.mapCost]
    · rw [if_neg hb, if_neg hb]
      simp [St.mapCost]
      rfl

theorem loop_map (h : CostMap φ ftol ftol') (he : EnvMap φ env env') (e : Eda R σ Ω)
    (f : ℕ → R → C) (ρ : Rand Ω) (noise : Gen R → Except PyErr (Gen R)) (n t : ℕ) (s : St R C σ) :
    loop env' e (fun k r => φ (f k r)) ftol' ρ noise n t (s.mapCost φ) =
      (loop env e f ftol ρ noise n t s).map (St.mapCost φ) := by
  induction n generalizing t s with
  | zero => rfl
  | succ n ih =>
    simp only [loop]
    rw [step_map h he]
    cases step env e f ftol ρ noise t s with
    | error err => rfl
    | ok x =>
      obtain ⟨s', brk⟩ := x
      cases brk with
      | true => rfl
      | false => exact ih _ _

/-- The run with mapped costs is the mapped run. -/
theorem minimize_map (h : CostMap φ ftol ftol') (he : EnvMap φ env env') (e : Eda R σ Ω)
    (f : ℕ → R → C) (pm : σ) (ρ : Rand Ω) :
    minimize env' e (fun k r => φ (f k r)) ftol' pm ρ =
      (minimize env e f ftol pm ρ).map (Prod.map (EdaResult.mapCost φ) (St.mapCost φ)) := by
  unfold minimize
  rw [start_map h he]
  cases start env e f pm ρ with
  | error err => rfl
  | ok s0 =>
    simp only [Except.map]
    cases e.mkNoise ρ.noise with
    | error err => rfl
    | ok noise =>
      simp only [loop_map h he]
      cases loop env e f ftol ρ noise (e.maxIter - 1).toNat 1 s0 with
      | error err => rfl
      | ok s => simp [Except.map, EdaResult.mapCost, St.mapCost]

end

end Verif
