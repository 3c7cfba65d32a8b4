/-
C03 (best cost against the history) and C07 (stagnation) for `EDA.minimize`, eda.py:201-209.
-/
import Verif.Lemmas.Tolerance
import Verif.Model.Examples

namespace Verif

open PyCost Spec

section general
variable {R C σ Ω : Type} [PyCost C] [LawfulCost C] [UniformCost C]
variable {env : Env C} {e : Eda R σ Ω} {f : ℕ → R → C} {ftol : C} {pm : σ} {ρ : Rand Ω}
variable {res : EdaResult R C} {s : St R C σ}

/-- **C03**, tolerance without effect (`b * (1 + ftol) = b`, e.g. `ftol = 0`): `best_cost` is the
minimum of `history`.  Holds for every kind of cost, including IEEE floats with NaN. -/
theorem C03_zero_tolerance (hv : env.Valid) (ht : ∀ b : C, mulTol b ftol = b)
    (h : minimize env e f ftol pm ρ = .ok (res, s)) : IsMinOf res.bestCost res.history := by
  obtain ⟨_, hbc, hh, _⟩ := result_eq h
  rw [hbc, hh]
  exact bestAfter_zero_tol ht (bestInv_minimize hv h).best

end general

section field
variable {K : Type} [Field K] [LinearOrder K] [IsStrictOrderedRing K]
variable {R σ Ω : Type}
variable {env : Env K} {e : Eda R σ Ω} {f : ℕ → R → K} {ftol : K} {pm : σ} {ρ : Rand Ω}
variable {res : EdaResult R K} {s : St R K σ}

example : ∃ res s, minimize Ex.env Ex.eda Ex.cost 0 Ex.pm Ex.rand = .ok (res, s) ∧
    ∀ x ∈ res.history, res.bestCost ≤ x := by
  obtain ⟨res, s, h⟩ := Ex.run_ok
  refine ⟨res, s, h, ?_⟩
  have := (C03_zero_tolerance Ex.env_valid (by intro b; simp) h).2
  intro x hx
  simpa using this x hx

/-- **C03**, non-negative costs: `best_cost ≤ (1 + ftol)^(later generations) * history[j]`. -/
theorem C03_nonneg_costs (hv : env.Valid) (h0 : 0 ≤ ftol)
    (h : minimize env e f ftol pm ρ = .ok (res, s)) (hnn : ∀ x ∈ res.history, 0 ≤ x) :
    ∀ j x, res.history[j]? = some x →
      res.bestCost ≤ (1 + ftol) ^ (res.history.length - 1 - j) * x := by
  obtain ⟨_, hbc, hh, _⟩ := result_eq h
  rw [hh] at hnn
  rw [hbc, hh]
  exact bestAfter_nonneg h0 _ _ (bestInv_minimize hv h).best hnn

/-- **C03**, non-positive costs: `best_cost * (1 + ftol)` is a lower bound of the history. -/
theorem C03_nonpos_costs (hv : env.Valid) (h0 : 0 ≤ ftol)
    (h : minimize env e f ftol pm ρ = .ok (res, s)) (hnp : ∀ x ∈ res.history, x ≤ 0) :
    ∀ x ∈ res.history, res.bestCost * (1 + ftol) ≤ x := by
  obtain ⟨_, hbc, hh, _⟩ := result_eq h
  rw [hh] at hnp
  rw [hbc, hh]
  exact bestAfter_nonpos h0 _ _ (bestInv_minimize hv h).best hnp

/-- **C03**, costs of any sign with `|cost| ≤ M`: `best_cost` exceeds `history[j]` by at most
`ftol * M` per generation from `j` on. -/
theorem C03_any_sign (hv : env.Valid) {M : K} (h0 : 0 ≤ ftol)
    (h : minimize env e f ftol pm ρ = .ok (res, s)) (hM : ∀ x ∈ res.history, |x| ≤ M) :
    ∀ (j : ℕ) (x : K), res.history[j]? = some x →
      res.bestCost ≤ x + ftol * M * (res.history.length - j) := by
  obtain ⟨_, hbc, hh, _⟩ := result_eq h
  rw [hh] at hM
  rw [hbc, hh]
  exact bestAfter_abs h0 _ _ (bestInv_minimize hv h).best hM

/-- The tolerance is really needed in C03: with `ftol = 1/2` a run of `UMDAd` whose history is
`[6, 7, 7]` reports the best cost 7. -/
theorem C03_best_cost_can_worsen :
    ∃ res s, minimize Ex.env Ex.eda Ex.cost (1/2) Ex.pm Ex.randWorse = .ok (res, s) ∧
      res.history = [6, 7, 7] ∧ res.bestCost = 7 := by
  obtain ⟨⟨res, s⟩, h⟩ := Ex.ok_of_isSome Ex.runTol_some
  have hf := Ex.runTol_facts
  rw [h] at hf
  simp only [Except.toOption, Option.map_some, Option.some.injEq, Prod.mk.injEq] at hf
  exact ⟨res, s, h, hf⟩

example : ∃ res s, minimize Ex.env Ex.eda Ex.cost (1/2) Ex.pm Ex.randWorse = .ok (res, s) ∧
    res.bestCost ≤ (1 + 1/2) ^ 2 * 6 ∧ res.bestCost ≤ 6 + 1/2 * 7 * 3 := by
  obtain ⟨res, s, h, h1, h2⟩ := C03_best_cost_can_worsen
  have a := C03_nonneg_costs Ex.env_valid (by norm_num) h (by rw [h1]; simp) 0 6 (by rw [h1]; rfl)
  have b := C03_any_sign (M := 7) Ex.env_valid (by norm_num) h
    (by rw [h1]; simp [abs_le]; norm_num) 0 6 (by rw [h1]; rfl)
  rw [h1] at a b
  refine ⟨res, s, h, by simpa using a, by simpa using b⟩

omit [IsStrictOrderedRing K] in
/-- With a constant cost function every history entry is that constant. -/
theorem history_const (hv : env.Valid) {c : K} (hf : ∀ k r, f k r = c)
    (h : minimize env e f ftol pm ρ = .ok (res, s)) :
    res.history = List.replicate res.history.length c := by
  obtain ⟨_, _, hh, _⟩ := result_eq h
  have hl := logInv_minimize hv h
  rw [hh]
  refine List.eq_replicate_iff.2 ⟨rfl, fun x hx => ?_⟩
  obtain ⟨t, ht, hte⟩ := List.mem_iff_getElem.1 hx
  have ht' : t < s.log.length := by rw [hl.len]; exact ht
  have hmin := hl.mins t x s.log[t] (by rw [List.getElem?_eq_getElem ht, hte])
    (List.getElem?_eq_getElem ht')
  obtain ⟨⟨r, c'⟩, hrc, hc⟩ := List.mem_map.1 hmin.1
  have hfl : (r, c') ∈ s.log.flatten := List.mem_flatten.2 ⟨_, List.getElem_mem ht', hrc⟩
  obtain ⟨k, hk, hke⟩ := List.mem_iff_getElem.1 hfl
  have := hl.faithful k r c' (by rw [List.getElem?_eq_getElem hk, hke])
  rw [← hc, this, hf]

/-- **C07** (partial: the full claim "a constant cost function stops the run after `dead_iter`
generations" holds only if the constant is not positive or the tolerance is zero).  Then exactly
`min(max(1, max_iter), dead_iter + 1)` generations are evaluated. -/
theorem C07_stagnation_stops_partial (hv : env.Valid) {c : K} (hf : ∀ k r, f k r = c)
    (h0 : 0 ≤ ftol) (hc : c ≤ 0 ∨ ftol = 0) (hd : 1 ≤ e.deadIter)
    (h : minimize env e f ftol pm ρ = .ok (res, s)) :
    (res.history.length : ℤ) = min (max 1 e.maxIter) (e.deadIter + 1) := by
  obtain ⟨i1, i2, i3, i4⟩ := history_stop h
  have hrep := history_const hv hf h
  have hle : c * (1 + ftol) ≤ c := by
    rcases hc with hc | hc
    · nlinarith
    · rw [hc]; simp
  have hni : ∀ i, 1 ≤ i → i < res.history.length → NonImproving ftol res.history i := by
    intro i h1 h2
    rw [hrep]
    exact (nonImproving_replicate ftol c _ i h1 (by simpa using h2)).2 hle
  -- the window of the first `dead_iter` generations
  have hwin : e.deadIter.toNat + 1 ≤ res.history.length →
      e.deadIter.toNat + 1 = res.history.length := by
    intro hlen
    have := i4 1 e.deadIter.toNat (by omega) (by omega)
      ⟨le_refl _, by omega, fun i h1 h2 => hni i h1 (by omega)⟩
    omega
  have hshort : (res.history.length : ℤ) < max 1 e.maxIter →
      e.deadIter + 1 ≤ res.history.length := by
    intro hlt
    obtain ⟨_, j, m, hm, hw, hjm⟩ := i3 hlt
    have := hw.1
    omega
  clear i3 i4
  omega

/-- **C07, negative part**: with a positive constant cost and a positive tolerance the run never
stops early, whatever `dead_iter` is: each generation counts as an improvement. -/
theorem C07_refuted_positive (hv : env.Valid) {c : K} (hf : ∀ k r, f k r = c)
    (hc : 0 < c) (h0 : 0 < ftol) (h : minimize env e f ftol pm ρ = .ok (res, s)) :
    (res.history.length : ℤ) = max 1 e.maxIter := by
  obtain ⟨i1, i2, i3, i4⟩ := history_stop h
  have hrep := history_const hv hf h
  by_contra hne
  obtain ⟨hd, j, m, hm, hw, hjm⟩ := i3 (lt_of_le_of_ne i2 hne)
  have := hw.2.2 j (le_refl _) (by omega)
  rw [hrep, nonImproving_replicate ftol c _ j hw.1 (by omega)] at this
  nlinarith

/-- A concrete pair of runs of `UMDAd` with `dead_iter = 1`, `max_iter = 3`, `ftol = 1/100`:
constant cost `-5` stops after 2 generations, constant cost `5` runs all 3. -/
theorem C07_witness :
    (∃ res s, minimize Ex.env Ex.edaDead (fun _ _ => (-5 : ℚ)) (1/100) Ex.pm Ex.rand = .ok (res, s) ∧
      res.history.length = 2) ∧
    (∃ res s, minimize Ex.env Ex.edaDead (fun _ _ => (5 : ℚ)) (1/100) Ex.pm Ex.rand = .ok (res, s) ∧
      res.history.length = 3) := by
  constructor
  · obtain ⟨⟨res, s⟩, h⟩ := Ex.ok_of_isSome Ex.runNeg_some
    have hf := Ex.runNeg_facts
    rw [h] at hf
    simp only [Except.toOption, Option.map_some, Option.some.injEq] at hf
    exact ⟨res, s, h, by rw [hf]; rfl⟩
  · obtain ⟨⟨res, s⟩, h⟩ := Ex.ok_of_isSome Ex.runPos_some
    have hf := Ex.runPos_facts
    rw [h] at hf
    simp only [Except.toOption, Option.map_some, Option.some.injEq] at hf
    exact ⟨res, s, h, by rw [hf]; rfl⟩

example : ∃ res s, minimize Ex.env Ex.edaDead (fun _ _ => (-5 : ℚ)) (1/100) Ex.pm Ex.rand =
    .ok (res, s) ∧ (res.history.length : ℤ) = min (max 1 Ex.edaDead.maxIter) (Ex.edaDead.deadIter + 1) := by
  obtain ⟨⟨res, s, h, _⟩, _⟩ := C07_witness
  exact ⟨res, s, h, C07_stagnation_stops_partial Ex.env_valid (fun _ _ => rfl) (by norm_num)
    (Or.inl (by norm_num)) (by decide) h⟩

end field

end Verif
