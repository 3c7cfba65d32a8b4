/-
Properties of the generic loop `EDA.minimize` (eda.py:148-222): C01, C02, C04, C05, C06, C08, C51.
They hold for every algorithm `e` (initializer, model, noise, selection sizes are parameters),
every cost function `f`, every sequence of draws `ρ` and every machine `env`.
-/
import Verif.Lemmas.Loop
import Verif.Model.Examples

namespace Verif

open PyCost Spec

variable {R C σ Ω : Type} [PyCost C] [LawfulCost C] [UniformCost C]
variable {env : Env C} {e : Eda R σ Ω} {f : ℕ → R → C} {ftol : C} {pm : σ} {ρ : Rand Ω}
variable {res : EdaResult R C} {s : St R C σ}

/-- **C01** `best_cost` is an entry of `history` and was returned by the cost function: some call
number `k` of this run was made on an individual `r` and returned `best_cost`. -/
theorem C01_best_cost_observed (hv : env.Valid)
    (h : minimize env e f ftol pm ρ = .ok (res, s)) :
    res.bestCost ∈ res.history ∧
      ∃ (k : ℕ) (r : R), s.log.flatten[k]? = some (r, res.bestCost) ∧ res.bestCost = f k r := by
  obtain ⟨_, hbc, hh, _⟩ := result_eq h
  have hb := bestInv_minimize hv h
  have hl := logInv_minimize hv h
  have hmem := bestAfter_mem _ _ _ hb.best
  rw [hbc, hh]
  refine ⟨hmem, ?_⟩
  obtain ⟨t, ht, hte⟩ := List.mem_iff_getElem.1 hmem
  have ht' : t < s.log.length := by rw [hl.len]; exact ht
  have hmin := hl.mins t s.bestCost s.log[t] (by rw [List.getElem?_eq_getElem ht, hte])
    (List.getElem?_eq_getElem ht')
  obtain ⟨⟨r, c⟩, hrc, hc⟩ := List.mem_map.1 hmin.1
  have hfl : (r, c) ∈ s.log.flatten := List.mem_flatten.2 ⟨_, List.getElem_mem ht', hrc⟩
  obtain ⟨k, hk, hke⟩ := List.mem_iff_getElem.1 hfl
  have hk' : s.log.flatten[k]? = some (r, s.bestCost) := by
    rw [List.getElem?_eq_getElem hk, hke]
    simp only at hc
    rw [hc]
  exact ⟨k, r, hk', hl.faithful k r _ hk'⟩

example : ∃ res s, minimize Ex.env Ex.eda Ex.cost 0 Ex.pm Ex.rand = .ok (res, s) ∧
    ∃ (k : ℕ) (r : List ℚ), s.log.flatten[k]? = some (r, res.bestCost) ∧
      res.bestCost = Ex.cost k r := by
  obtain ⟨res, s, h⟩ := Ex.run_ok
  exact ⟨res, s, h, (C01_best_cost_observed Ex.env_valid h).2⟩

/-- **C02** (partial: the full claim "`best_ind` is an evaluated individual with cost `best_cost`"
fails exactly when no generation after the first improved).  If `best_ind` is an individual then
the cost function was called on it and returned `best_cost`, and this is the case iff some
generation improved; otherwise `best_ind` is the *position* in the first generation of an
individual with cost `best_cost`. -/
theorem C02_best_ind_partial (hv : env.Valid)
    (h : minimize env e f ftol pm ρ = .ok (res, s)) :
    (∀ r, res.bestInd = .row r →
      ∃ k : ℕ, s.log.flatten[k]? = some (r, f k r) ∧ eq (f k r) res.bestCost = true) ∧
    (∀ i, res.bestInd = .index i → ∃ batch r, s.log[0]? = some batch ∧
      ∃ k : ℕ, batch[i]? = some (r, f k r) ∧ eq (f k r) res.bestCost = true) ∧
    ((∃ r, res.bestInd = .row r) ↔
      ∃ j, 1 ≤ j ∧ j < res.history.length ∧ ¬ NonImproving ftol res.history j) := by
  obtain ⟨hbi, hbc, hh, _⟩ := result_eq h
  have hb := bestInv_minimize hv h
  have hl := logInv_minimize hv h
  rw [hbi, hbc, hh]
  refine ⟨?_, ?_, ?_, ?_⟩
  · intro r hr
    obtain ⟨⟨k, c, hk, hc⟩, _⟩ := hb.row r hr
    have := hl.faithful k r c hk
    rw [this] at hk hc
    exact ⟨k, hk, hc⟩
  · intro i hi
    obtain ⟨⟨batch, r, c, h0, hi', hc⟩, _⟩ := hb.index i hi
    refine ⟨batch, r, h0, ?_⟩
    have hflat : s.log.flatten[i]? = some (r, c) := by
      cases hlog : s.log with
      | nil => rw [hlog] at h0; simp at h0
      | cons b bs =>
        rw [hlog] at h0
        simp only [List.getElem?_cons_zero, Option.some.injEq] at h0
        subst h0
        rw [List.flatten_cons, List.getElem?_append_left (List.getElem?_eq_some_iff.1 hi').1]
        exact hi'
    have := hl.faithful i r c hflat
    rw [this] at hi' hc
    exact ⟨i, hi', hc⟩
  · rintro ⟨r, hr⟩
    exact (hb.row r hr).2
  · rintro ⟨j, h1, h2, h3⟩
    cases hx : s.bestInd with
    | row r => exact ⟨r, rfl⟩
    | index i => exact absurd ((hb.index i hx).2.2 j h1 h2) h3

example : ∃ res s, minimize Ex.env Ex.eda Ex.cost 0 Ex.pm Ex.rand = .ok (res, s) ∧
    res.bestInd = .row [1, 1] ∧
    ∃ k : ℕ, s.log.flatten[k]? = some ([1, 1], Ex.cost k [1, 1]) := by
  obtain ⟨res, s, h⟩ := Ex.run_ok
  have hf := Ex.run_facts
  rw [Ex.run, h] at hf
  simp only [Except.toOption, Option.map_some, Option.some.injEq, Prod.mk.injEq] at hf
  obtain ⟨k, hk, _⟩ := (C02_best_ind_partial Ex.env_valid h).1 _ hf.2.2.1
  exact ⟨res, s, h, hf.2.2.1, k, hk⟩

omit [LawfulCost C] [UniformCost C] in
/-- **C02, negative part**: with `max_iter ≤ 1` every run that returns reports a position, never an
individual. -/
theorem C02_refuted_one_iteration (hm : e.maxIter ≤ 1)
    (h : minimize env e f ftol pm ρ = .ok (res, s)) : ∃ i, res.bestInd = .index i := by
  obtain ⟨hbi, _⟩ := result_eq h
  obtain ⟨s0, noise, h0, _, hl, _⟩ := minimize_ok h
  have : (e.maxIter - 1).toNat = 0 := by omega
  rw [this] at hl
  simp only [loop, Except.ok.injEq] at hl
  obtain ⟨_, _, _, _, i, hs⟩ := start_ok h0
  exact ⟨i, by rw [hbi, ← hl, hs.bestInd]⟩

/-- **C02, negative part**: a run of `UMDAd` with three generations that reports the position `0`
as best individual. -/
theorem C02_refuted : ∃ res s, minimize Ex.env Ex.eda Ex.cost 0 Ex.pm Ex.randFlat = .ok (res, s) ∧
    res.bestInd = .index 0 ∧ ∀ r, res.bestInd ≠ .row r := by
  obtain ⟨⟨res, s⟩, h⟩ := Ex.ok_of_isSome Ex.runFlat_some
  have hf := Ex.runFlat_facts
  rw [h] at hf
  simp only [Except.toOption, Option.map_some, Option.some.injEq, Prod.mk.injEq] at hf
  exact ⟨res, s, h, hf.2.2, by simp [hf.2.2]⟩

/-- **C04** one history entry per generation, entry `t` is the minimum of the costs of generation
`t`, and call number `k` of the run returned the recorded cost of the recorded individual. -/
theorem C04_history_is_min (hv : env.Valid)
    (h : minimize env e f ftol pm ρ = .ok (res, s)) :
    res.history.length = s.log.length ∧ Faithful f s.log.flatten ∧
    ∀ (t : ℕ) (x : C) (batch : List (R × C)), res.history[t]? = some x → s.log[t]? = some batch →
      IsMinOf x (batch.map Prod.snd) := by
  obtain ⟨_, _, hh, _⟩ := result_eq h
  have hl := logInv_minimize hv h
  rw [hh]
  exact ⟨hl.len.symm, hl.faithful, hl.mins⟩

/-- **C04**, every iteration: the calls made for the current generation are one call per individual
of the generation, in order, with the recorded costs; nothing else is called. -/
theorem C04_generation_evaluated (hv : env.Valid) {t : ℕ}
    (h : Visited env e f ftol pm ρ t s) :
    ∃ pre, s.log = pre ++ [s.gen.rows.zip s.evals] ∧ s.evals.length = s.gen.rows.length ∧
      ∀ i r, s.gen.rows[i]? = some r → s.evals[i]? = some (f (pre.flatten.length + i) r) := by
  obtain ⟨pre, h1, _, h3, h4⟩ := (logInv_visited hv h).last
  refine ⟨pre, h1, h3, fun i r hr => ?_⟩
  rw [h4, callRows_getElem?, hr]
  rfl

/-- **C51** after `minimize` the attribute `evaluations` holds, position by position, the costs
returned by the last calls of the cost function for the individuals in `generation`. -/
theorem C51_final_alignment (hv : env.Valid)
    (h : minimize env e f ftol pm ρ = .ok (res, s)) :
    ∃ pre, s.log = pre ++ [s.gen.rows.zip s.evals] ∧ s.evals.length = s.gen.rows.length ∧
      ∀ i r, s.gen.rows[i]? = some r → s.evals[i]? = some (f (pre.flatten.length + i) r) := by
  obtain ⟨pre, h1, _, h3, h4⟩ := (logInv_minimize hv h).last
  refine ⟨pre, h1, h3, fun i r hr => ?_⟩
  rw [h4, callRows_getElem?, hr]
  rfl

example : ∃ res s, minimize Ex.env Ex.eda Ex.cost 0 Ex.pm Ex.rand = .ok (res, s) ∧
    res.history.length = s.log.length ∧ res.history = [6, 5, 5] ∧
    s.evals.length = s.gen.rows.length := by
  obtain ⟨res, s, h⟩ := Ex.run_ok
  have hf := Ex.run_facts
  rw [Ex.run, h] at hf
  simp only [Except.toOption, Option.map_some, Option.some.injEq, Prod.mk.injEq] at hf
  obtain ⟨_, _, h2, _⟩ := C51_final_alignment Ex.env_valid h
  exact ⟨res, s, h, (C04_history_is_min Ex.env_valid h).1, hf.1, h2⟩

omit [LawfulCost C] [UniformCost C] in
/-- **C05** `minimize` is a total function (it terminates for every input) and evaluates at least
one and at most `max(1, max_iter)` generations. -/
theorem C05_iterations_bounded (h : minimize env e f ftol pm ρ = .ok (res, s)) :
    1 ≤ res.history.length ∧ (res.history.length : ℤ) ≤ max 1 e.maxIter :=
  ⟨(history_stop h).1, (history_stop h).2.1⟩

omit [LawfulCost C] [UniformCost C] in
/-- **C06** early stopping: (a) if fewer than `max(1, max_iter)` generations were evaluated then
`dead_iter ≥ 1` and the last `dead_iter` generations did not improve; (b) no earlier window of
`dead_iter` consecutive non-improving generations exists; (c) with `dead_iter ≤ 0` the run never
stops early. -/
theorem C06_dead_iter (h : minimize env e f ftol pm ρ = .ok (res, s)) :
    ((res.history.length : ℤ) < max 1 e.maxIter → 0 < e.deadIter ∧ ∃ j m : ℕ,
      (m : ℤ) = e.deadIter ∧ 1 ≤ j ∧ j + m = res.history.length ∧
      ∀ i, j ≤ i → i < j + m → NonImproving ftol res.history i) ∧
    (∀ j m : ℕ, (m : ℤ) = e.deadIter → 1 ≤ m → 1 ≤ j → j + m < res.history.length →
      ∃ i, j ≤ i ∧ i < j + m ∧ ¬ NonImproving ftol res.history i) ∧
    (e.deadIter ≤ 0 → (res.history.length : ℤ) = max 1 e.maxIter) := by
  obtain ⟨_, h2, h3, h4⟩ := history_stop h
  refine ⟨?_, ?_, ?_⟩
  · intro hx
    obtain ⟨hd, j, m, hm, hw, hjm⟩ := h3 hx
    exact ⟨hd, j, m, hm, hw.1, hjm, hw.2.2⟩
  · intro j m hm h1 hj hlt
    by_contra hc
    push Not at hc
    have := h4 j m hm (by omega) ⟨hj, by omega, hc⟩
    omega
  · intro hd
    by_contra hc
    have := (h3 (lt_of_le_of_ne h2 hc)).1
    omega

example : ∃ res s, minimize Ex.env Ex.eda Ex.cost 0 Ex.pm Ex.randFlat = .ok (res, s) ∧
    NonImproving 0 res.history 1 ∧ NonImproving 0 res.history 2 := by
  obtain ⟨⟨res, s⟩, h⟩ := Ex.ok_of_isSome Ex.runFlat_some
  have hf := Ex.runFlat_facts
  rw [h] at hf
  simp only [Except.toOption, Option.map_some, Option.some.injEq, Prod.mk.injEq] at hf
  refine ⟨res, s, h, ?_⟩
  rw [hf.1]
  exact ⟨⟨6, 6, by decide +kernel, by decide +kernel, by decide +kernel⟩,
    ⟨6, 6, by decide +kernel, by decide +kernel, by decide +kernel⟩⟩

omit [LawfulCost C] [UniformCost C] in
/-- **C08** (partial: the full claim "`n_fev` is the number of calls" fails when `init_data` does
not have `size_gen` rows).  If the first generation has `m` rows and the model samples `size_gen`
rows, then `n_fev = calls + size_gen - m`; in particular it equals the number of calls iff
`m = size_gen`. -/
theorem C08_nfev_partial (hv : env.Valid) {m : ℕ}
    (hi : ∀ g, e.initGen ρ.init = .ok g → g.rows.length = m)
    (hsz : ∀ pm ω g, e.sample pm ω = .ok g → (g.rows.length : ℤ) = e.sizeGen)
    (h : minimize env e f ftol pm ρ = .ok (res, s)) :
    res.nFev = s.log.flatten.length + e.sizeGen - m ∧
      (res.nFev = s.log.flatten.length ↔ (m : ℤ) = e.sizeGen) := by
  have hc := calls_count hv hi hsz h
  obtain ⟨_, _, hh, hn⟩ := result_eq h
  have : res.nFev = s.log.flatten.length + e.sizeGen - m := by
    rw [hn, hc, hh]; ring
  refine ⟨this, ?_⟩
  rw [this]
  constructor <;> intro h <;> omega

/-- **C08, negative part**: started from three individuals with `size_gen = 4`, `UMDAd` reports 12
evaluations but called the cost function 11 times. -/
theorem C08_refuted : ∃ res s, minimize Ex.env Ex.dataEda Ex.cost 0 Ex.pm Ex.rand = .ok (res, s) ∧
    res.nFev = 12 ∧ s.log.flatten.length = 11 := by
  obtain ⟨⟨res, s⟩, h⟩ := Ex.ok_of_isSome Ex.runData_some
  have hf := Ex.runData_facts
  rw [h] at hf
  simp only [Except.toOption, Option.map_some, Option.some.injEq, Prod.mk.injEq] at hf
  exact ⟨res, s, h, hf.2.1, hf.2.2⟩

end Verif
