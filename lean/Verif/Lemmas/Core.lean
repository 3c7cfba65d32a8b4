/- Inversion and invariant lemmas for the EDA loop. -/
import Verif.Lemmas.Parallel
import Verif.Spec.Core

namespace Verif

open PyCost

variable {R C σ Ω : Type} [PyCost C]

section check

theorem check_calls {env : Env C} (hv : env.Valid) {par : Bool} {f : ℕ → R → C} {k : ℕ}
    {rows : List R} {ev : Evaluated R C} (h : checkGeneration env par f k rows = .ok ev) :
    rows ≠ [] ∧ ev.calls = rows.zip (callRows f k rows) := by
  unfold checkGeneration at h
  cases par with
  | true =>
    simp only [if_true] at h
    rcases lt_or_ge rows.length env.cpu with hl | hl
    · rw [parallelApply_error _ _ _ _ _ hl (hv.sched k)] at h
      simp at h
    · rw [parallelApply_ok _ _ _ _ _ hv.cpu hl (hv.sched k)] at h
      simp only [Except.ok.injEq] at h
      refine ⟨?_, by rw [← h]⟩
      intro hn
      have := hv.cpu
      simp [hn] at hl
      omega
  | false =>
    simp only [Bool.false_eq_true, if_false] at h
    by_cases hn : rows = []
    · rw [hn, applyAlong_nil] at h; simp at h
    · rw [applyAlong_ok _ _ _ hn] at h
      simp only [Except.ok.injEq] at h
      exact ⟨hn, by rw [← h]⟩

theorem castAll_length (l : List C) : (castAll l).length = l.length := by
  cases l <;> simp [castAll]

theorem check_stored_length {env : Env C} (hv : env.Valid) {par : Bool} {f : ℕ → R → C} {k : ℕ}
    {rows : List R} {ev : Evaluated R C} (h : checkGeneration env par f k rows = .ok ev) :
    ev.stored.length = rows.length := by
  unfold checkGeneration at h
  cases par with
  | true =>
    simp only [if_true] at h
    rcases lt_or_ge rows.length env.cpu with hl | hl
    · rw [parallelApply_error _ _ _ _ _ hl (hv.sched k)] at h
      simp at h
    · rw [parallelApply_ok _ _ _ _ _ hv.cpu hl (hv.sched k)] at h
      simp only [Except.ok.injEq] at h
      rw [← h]
      have := cut_calls f k 0 (splitSizes rows.length env.cpu) rows (splitSizes_sum _ _ hv.cpu)
      have h2 := congrArg List.length this
      rw [length_callRows] at h2
      rw [← h2]
      simp [List.length_flatten, List.map_map, Function.comp_def, castAll_length, arraySplit]
  | false =>
    simp only [Bool.false_eq_true, if_false] at h
    by_cases hn : rows = []
    · rw [hn, applyAlong_nil] at h; simp at h
    · rw [applyAlong_ok _ _ _ hn] at h
      simp only [Except.ok.injEq] at h
      rw [← h]
      simp [castAll_length, length_callRows]

theorem check_stored [UniformCost C] {env : Env C} (hv : env.Valid) {par : Bool}
    {f : ℕ → R → C} {k : ℕ} {rows : List R} {ev : Evaluated R C}
    (h : checkGeneration env par f k rows = .ok ev) :
    ev.stored = callRows f k rows := by
  unfold checkGeneration at h
  cases par with
  | true =>
    simp only [if_true] at h
    rcases lt_or_ge rows.length env.cpu with hl | hl
    · rw [parallelApply_error _ _ _ _ _ hl (hv.sched k)] at h
      simp at h
    · have hne : rows ≠ [] := by
        intro hn
        have := hv.cpu
        simp [hn] at hl
        omega
      rw [parallelApply_eq_applyAlong _ _ _ _ _ hv.cpu hl (hv.sched k),
        applyAlong_ok _ _ _ hne] at h
      simp only [Except.ok.injEq] at h
      rw [← h, castAll_uniform]
  | false =>
    simp only [Bool.false_eq_true, if_false] at h
    by_cases hn : rows = []
    · rw [hn, applyAlong_nil] at h; simp at h
    · rw [applyAlong_ok _ _ _ hn] at h
      simp only [Except.ok.injEq] at h
      rw [← h, castAll_uniform]

/-- Sequential evaluation of a non-empty generation succeeds; parallel evaluation needs at least
one row per CPU. -/
theorem check_isOk {env : Env C} (hv : env.Valid) {par : Bool} {f : ℕ → R → C} {k : ℕ}
    {rows : List R} (h : rows ≠ []) (hp : par = true → env.cpu ≤ rows.length) :
    ∃ ev, checkGeneration env par f k rows = .ok ev := by
  unfold checkGeneration
  cases par with
  | true => exact ⟨_, by rw [if_pos rfl, parallelApply_ok _ _ _ _ _ hv.cpu (hp rfl) (hv.sched k)]⟩
  | false => exact ⟨_, by simp only [Bool.false_eq_true, if_false]; rw [applyAlong_ok _ _ _ h]⟩

end check

/-- What a successful pass of the loop did. -/
structure StepOk (env : Env C) (e : Eda R σ Ω) (f : ℕ → R → C) (ftol : C) (ρ : Rand Ω)
    (noise : Gen R → Except PyErr (Gen R)) (t : ℕ) (s s' : St R C σ) (b : Bool)
    (s1 : St R C σ) (noisy : Gen R) (ev : Evaluated R C) (best : C) (i : ℕ) (ind : R) : Prop where
  trunc : truncation env e s = .ok s1
  noise : noise s1.gen = .ok noisy
  update : e.updatePm s.pm noisy s1.elite (ρ.learn t) = .ok s'.pm
  sample : e.sample s'.pm (ρ.sample t) = .ok s'.gen
  check : checkGeneration env e.parallel f s.log.flatten.length s'.gen.rows = .ok ev
  minEq : pyMin ev.stored = some best
  pos : whereFirst ev.stored best = some i
  indRow : s'.gen.rows[i]? = some ind
  evals : s'.evals = ev.stored
  elite : s'.elite = s1.elite
  evalsElite : s'.evalsElite = s1.evalsElite
  history : s'.history = s.history ++ [best]
  log : s'.log = s.log ++ [ev.calls]
  upd : (lt best (mulTol s.bestCost ftol) = true ∧ s'.bestCost = best ∧ s'.bestInd = .row ind ∧
          s'.notBetter = 0 ∧ b = false) ∨
        (lt best (mulTol s.bestCost ftol) = false ∧ s'.bestCost = s.bestCost ∧
          s'.bestInd = s.bestInd ∧ s'.notBetter = s.notBetter + 1 ∧
          b = decide (s'.notBetter = e.deadIter))

theorem truncation_fields {env : Env C} {e : Eda R σ Ω} {s s1 : St R C σ}
    (h : truncation env e s = .ok s1) :
    s1.bestCost = s.bestCost ∧ s1.bestInd = s.bestInd ∧ s1.pm = s.pm ∧ s1.history = s.history ∧
      s1.notBetter = s.notBetter ∧ s1.log = s.log := by
  unfold truncation at h
  split at h
  · simp at h
  · simp only [Except.ok.injEq] at h
    subst h
    simp

theorem step_ok {env : Env C} {e : Eda R σ Ω} {f : ℕ → R → C} {ftol : C} {ρ : Rand Ω}
    {noise : Gen R → Except PyErr (Gen R)} {t : ℕ} {s s' : St R C σ} {b : Bool}
    (h : step env e f ftol ρ noise t s = .ok (s', b)) :
    ∃ s1 noisy ev best i ind, StepOk env e f ftol ρ noise t s s' b s1 noisy ev best i ind := by
  unfold step at h
  split at h
  · simp at h
  rename_i s1 ht
  obtain ⟨f1, f2, f3, f4, f5, f6⟩ := truncation_fields ht
  split at h
  · simp at h
  rename_i noisy hn
  split at h
  · simp at h
  rename_i pm hu
  split at h
  · simp at h
  rename_i gen hg
  split at h
  · simp at h
  rename_i calls evals hc
  split at h
  · simp at h
  rename_i best hm
  split at h
  · simp at h
  rename_i i hi
  split at h
  · simp at h
  rename_i ind hd
  rw [f3] at hu
  rw [f6] at hc
  simp only at h
  split at h
  · rename_i hlt
    simp only [Except.ok.injEq, Prod.mk.injEq] at h
    obtain ⟨h, hb⟩ := h
    subst h
    exact ⟨s1, noisy, ⟨calls, evals⟩, best, i, ind, ⟨ht, hn, hu, hg, hc, hm, hi, hd, rfl, rfl, rfl,
      by simp [f4], by simp [f6], Or.inl ⟨by rw [← f1]; exact hlt, rfl, rfl, rfl, hb.symm⟩⟩⟩
  · rename_i hlt
    simp only [Except.ok.injEq, Prod.mk.injEq] at h
    obtain ⟨h, hb⟩ := h
    subst h
    exact ⟨s1, noisy, ⟨calls, evals⟩, best, i, ind, ⟨ht, hn, hu, hg, hc, hm, hi, hd, rfl, rfl, rfl,
      by simp [f4], by simp [f6],
      Or.inr ⟨by rw [← f1]; simpa using hlt, f1, f2, by simp [f5], hb.symm⟩⟩⟩

/-- What a successful first evaluation did. -/
structure StartOk (env : Env C) (e : Eda R σ Ω) (f : ℕ → R → C) (pm : σ) (ρ : Rand Ω)
    (s0 : St R C σ) (ev : Evaluated R C) (r0 : R) (c0 best : C) (i : ℕ) : Prop where
  init : e.initGen ρ.init = .ok s0.gen
  check : checkGeneration env e.parallel f 0 s0.gen.rows = .ok ev
  row0 : s0.gen.rows[0]? = some r0
  cost0 : ev.stored[0]? = some c0
  minEq : pyMin ev.stored = some best
  pos : whereFirst ev.stored best = some i
  evals : s0.evals = ev.stored
  elite : s0.elite = { s0.gen with rows := [r0] }
  evalsElite : s0.evalsElite = [c0]
  bestCost : s0.bestCost = best
  bestInd : s0.bestInd = .index i
  pm : s0.pm = pm
  history : s0.history = [best]
  notBetter : s0.notBetter = 0
  log : s0.log = [ev.calls]

theorem start_ok {env : Env C} {e : Eda R σ Ω} {f : ℕ → R → C} {pm : σ} {ρ : Rand Ω}
    {s0 : St R C σ} (h : start env e f pm ρ = .ok s0) :
    ∃ ev r0 c0 best i, StartOk env e f pm ρ s0 ev r0 c0 best i := by
  unfold start at h
  split at h
  · simp at h
  rename_i gen hg
  split at h
  · simp at h
  rename_i calls evals hc
  split at h
  · rename_i r0 rs c0 cs hr
    split at h
    · simp at h
    rename_i best hm
    split at h
    · simp at h
    rename_i i hi
    simp only [Except.ok.injEq] at h
    subst h
    exact ⟨⟨calls, _⟩, r0, c0, best, i, ⟨hg, hc, by simp [hr], by simp, hm, hi, rfl, rfl, rfl, rfl,
      rfl, rfl, rfl, rfl, rfl⟩⟩
  · simp at h

/-- Invariants established by `start` and preserved by every pass hold at the end of the loop. -/
theorem loop_inv {env : Env C} {e : Eda R σ Ω} {f : ℕ → R → C} {ftol : C} {ρ : Rand Ω}
    {noise : Gen R → Except PyErr (Gen R)} (Inv : St R C σ → Prop)
    (hstep : ∀ t s s' b, Inv s → step env e f ftol ρ noise t s = .ok (s', b) → Inv s') :
    ∀ n t s s', Inv s → loop env e f ftol ρ noise n t s = .ok s' → Inv s' := by
  intro n
  induction n with
  | zero => intro t s s' hi h; simp [loop] at h; rw [← h]; exact hi
  | succ n ih =>
    intro t s s' hi h
    unfold loop at h
    split at h
    · simp at h
    · rename_i s2 hs
      simp only [Except.ok.injEq] at h
      rw [← h]; exact hstep _ _ _ _ hi hs
    · rename_i s2 hs
      exact ih _ _ _ (hstep _ _ _ _ hi hs) h

/-- Decomposition of a run that returns. -/
theorem minimize_ok {env : Env C} {e : Eda R σ Ω} {f : ℕ → R → C} {ftol : C} {pm : σ}
    {ρ : Rand Ω} {res : EdaResult R C} {s : St R C σ}
    (h : minimize env e f ftol pm ρ = .ok (res, s)) :
    ∃ s0 noise, start env e f pm ρ = .ok s0 ∧ e.mkNoise ρ.noise = .ok noise ∧
      loop env e f ftol ρ noise (e.maxIter - 1).toNat 1 s0 = .ok s ∧
      res = { bestInd := s.bestInd, bestCost := s.bestCost,
              nFev := s.history.length * e.sizeGen, history := s.history } := by
  unfold minimize at h
  split at h
  · simp at h
  rename_i s0 h0
  split at h
  · simp at h
  rename_i noise hn
  split at h
  · simp at h
  rename_i s' hl
  simp only [Except.ok.injEq, Prod.mk.injEq] at h
  obtain ⟨h1, h2⟩ := h
  subst h2
  exact ⟨s0, noise, h0, hn, hl, h1.symm⟩

/-- Invariant rule for `minimize`. -/
theorem minimize_inv {env : Env C} {e : Eda R σ Ω} {f : ℕ → R → C} {ftol : C} {pm : σ}
    {ρ : Rand Ω} {res : EdaResult R C} {s : St R C σ} (Inv : St R C σ → Prop)
    (hstart : ∀ s0, start env e f pm ρ = .ok s0 → Inv s0)
    (hstep : ∀ noise t s s' b, Inv s → e.mkNoise ρ.noise = .ok noise →
      step env e f ftol ρ noise t s = .ok (s', b) → Inv s')
    (h : minimize env e f ftol pm ρ = .ok (res, s)) : Inv s := by
  obtain ⟨s0, noise, h0, hn, hl, _⟩ := minimize_ok h
  exact loop_inv Inv (fun t s s' b hi hs => hstep noise t s s' b hi hn hs) _ _ _ _ (hstart _ h0) hl

/-- Invariant rule for the states at the loop head. -/
theorem visited_inv {env : Env C} {e : Eda R σ Ω} {f : ℕ → R → C} {ftol : C} {pm : σ}
    {ρ : Rand Ω} (Inv : St R C σ → Prop)
    (hstart : ∀ s0, start env e f pm ρ = .ok s0 → Inv s0)
    (hstep : ∀ noise t s s' b, Inv s → e.mkNoise ρ.noise = .ok noise →
      step env e f ftol ρ noise t s = .ok (s', b) → Inv s')
    {t : ℕ} {s : St R C σ} (h : Visited env e f ftol pm ρ t s) : Inv s := by
  induction h with
  | first h => exact hstart _ h
  | next _ hn hs ih => exact hstep _ _ _ _ _ ih hn hs

/-- Rows and costs go together. -/
def Aligned (s : St R C σ) : Prop :=
  s.evals.length = s.gen.rows.length ∧ s.evalsElite.length = s.elite.rows.length

/-- The selection pool of a state: current generation and elite, with their costs. -/
def poolOf (s : St R C σ) : List (R × C) :=
  (s.gen.rows ++ s.elite.rows).zip (s.evals ++ s.evalsElite)

omit [PyCost C] in
theorem poolOf_eq {s : St R C σ} (h : Aligned s) :
    poolOf s = s.gen.rows.zip s.evals ++ s.elite.rows.zip s.evalsElite := by
  unfold poolOf
  rw [List.zip_append h.1.symm]

omit [PyCost C] in
theorem poolOf_length {s : St R C σ} (h : Aligned s) :
    (poolOf s).length = s.gen.rows.length + s.elite.rows.length := by
  have := h.1; have := h.2
  simp [poolOf]
  omega

theorem truncation_ok {env : Env C} (hv : env.Valid) {e : Eda R σ Ω} {s s1 : St R C σ}
    (ha : Aligned s) (h : truncation env e s = .ok s1) :
    ∃ P : List (R × C), P.Perm (poolOf s) ∧ P.Pairwise (fun a b => LeNanLast a.2 b.2) ∧
      s1.gen.rows = (P.take (sliceLen P.length e.truncLen)).map Prod.fst ∧
      s1.evals = (P.take (sliceLen P.length e.truncLen)).map Prod.snd ∧
      s1.elite.rows = (P.take (sliceLen P.length e.eliteLen)).map Prod.fst ∧
      s1.evalsElite = (P.take (sliceLen P.length e.eliteLen)).map Prod.snd := by
  unfold truncation Gen.concat at h
  split at h
  · simp at h
  · rename_i gen hg
    split at hg
    · simp only [Except.ok.injEq] at hg h
      subst hg
      subst h
      obtain ⟨P, h1, h2, h3, h4⟩ := argsort_pool hv.argsort (s.gen.rows ++ s.elite.rows)
        (s.evals ++ s.evalsElite) (by simp [ha.1, ha.2])
      refine ⟨P, h1, h2, ?_⟩
      rw [h3]
      exact ⟨(h4 _).1, (h4 _).2, (h4 _).1, (h4 _).2⟩
    · simp at hg

theorem truncation_aligned {env : Env C} (hv : env.Valid) {e : Eda R σ Ω} {s s1 : St R C σ}
    (ha : Aligned s) (h : truncation env e s = .ok s1) : Aligned s1 := by
  obtain ⟨P, _, _, h1, h2, h3, h4⟩ := truncation_ok hv ha h
  constructor
  · rw [h1, h2]; simp
  · rw [h3, h4]; simp

theorem start_aligned {env : Env C} (hv : env.Valid) {e : Eda R σ Ω} {f : ℕ → R → C} {pm : σ}
    {ρ : Rand Ω} {s0 : St R C σ} (h : start env e f pm ρ = .ok s0) : Aligned s0 := by
  obtain ⟨ev, r0, c0, best, i, hs⟩ := start_ok h
  constructor
  · rw [hs.evals]; exact check_stored_length hv hs.check
  · rw [hs.elite, hs.evalsElite]; rfl

theorem step_aligned {env : Env C} (hv : env.Valid) {e : Eda R σ Ω} {f : ℕ → R → C} {ftol : C}
    {ρ : Rand Ω} {noise : Gen R → Except PyErr (Gen R)} {t : ℕ} {s s' : St R C σ} {b : Bool}
    (ha : Aligned s) (h : step env e f ftol ρ noise t s = .ok (s', b)) : Aligned s' := by
  obtain ⟨s1, noisy, ev, best, i, ind, hs⟩ := step_ok h
  have h1 := truncation_aligned hv ha hs.trunc
  constructor
  · rw [hs.evals]; exact check_stored_length hv hs.check
  · rw [hs.elite, hs.evalsElite]; exact h1.2

theorem visited_aligned {env : Env C} (hv : env.Valid) {e : Eda R σ Ω} {f : ℕ → R → C} {ftol : C}
    {pm : σ} {ρ : Rand Ω} {t : ℕ} {s : St R C σ} (h : Visited env e f ftol pm ρ t s) :
    Aligned s :=
  visited_inv Aligned (fun _ => start_aligned hv) (fun _ _ _ _ _ ha _ => step_aligned hv ha) h

end Verif
