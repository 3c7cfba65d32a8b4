/-
Parallel evaluation and storage of costs: C13, C54 (utils.py, eda.py:118-122).
-/
import Verif.Lemmas.Core
import Verif.Model.Examples

namespace Verif

open PyCost

section
variable {R C σ Ω : Type} [PyCost C]

/-- **C13** (partial: needs at least one individual per CPU and one numeric type of costs; without
them see `C13_refuted` and `C54_refuted`).  The parallel evaluation of a generation gives the costs
of the sequential one, in the same order, for every order in which the workers finish. -/
theorem C13_parallel_eq_sequential_partial [UniformCost C] (cpu : ℕ) (sched : List ℕ)
    (f : ℕ → R → C) (k : ℕ) (rows : List R) (hc : 0 < cpu) (hr : cpu ≤ rows.length)
    (hs : ∀ i < cpu, i ∈ sched) :
    parallelApply cpu sched f k rows = applyAlong f k rows ∧
    ∃ ev, parallelApply cpu sched f k rows = .ok ev ∧
      ev.stored = callRows f k rows ∧ ev.calls.map Prod.fst = rows := by
  have h := parallelApply_eq_applyAlong cpu sched f k rows hc hr hs
  refine ⟨h, ?_⟩
  rw [h, applyAlong_ok _ _ _ (by rintro rfl; simp at hr; omega)]
  refine ⟨_, rfl, castAll_uniform _, ?_⟩
  rw [List.map_fst_zip (by rw [length_callRows])]

/-- **C13** the order in which the workers finish never matters (any costs, any sizes). -/
theorem C13_schedule_irrelevant (cpu : ℕ) (s1 s2 : List ℕ) (f : ℕ → R → C) (k : ℕ) (rows : List R)
    (h1 : ∀ i < cpu, i ∈ s1) (h2 : ∀ i < cpu, i ∈ s2) :
    parallelApply cpu s1 f k rows = parallelApply cpu s2 f k rows := by
  rcases Nat.eq_zero_or_pos cpu with rfl | hc
  · simp [parallelApply]
  · rcases Nat.lt_or_ge rows.length cpu with hr | hr
    · rw [parallelApply_error _ _ _ _ _ hr h1, parallelApply_error _ _ _ _ _ hr h2]
    · rw [parallelApply_ok _ _ _ _ _ hc hr h1, parallelApply_ok _ _ _ _ _ hc hr h2]

/-- **C13** exact failure condition: with fewer individuals than CPUs the parallel evaluation is a
`ValueError`, while the sequential one succeeds for every non-empty generation. -/
theorem C13_too_few_rows (cpu : ℕ) (sched : List ℕ) (f : ℕ → R → C) (k : ℕ) (rows : List R)
    (hr : rows.length < cpu) (hne : rows ≠ []) (hs : ∀ i < cpu, i ∈ sched) :
    parallelApply cpu sched f k rows = .error .valueError ∧ ∃ ev, applyAlong f k rows = .ok ev :=
  ⟨parallelApply_error _ _ _ _ _ hr hs, _, applyAlong_ok _ _ _ hne⟩

/-- **C13** for whole runs: if the initial and all sampled generations have at least `cpu_count`
individuals, `minimize` with `parallelize=True` returns exactly what it returns with
`parallelize=False` (the same result, the same exception, the same final state). -/
theorem C13_minimize_partial [UniformCost C] (env : Env C) (hv : env.Valid) (e : Eda R σ Ω)
    (f : ℕ → R → C) (ftol : C) (pm : σ) (ρ : Rand Ω)
    (hi : ∀ ω g, e.initGen ω = .ok g → env.cpu ≤ g.rows.length)
    (hs : ∀ pm ω g, e.sample pm ω = .ok g → env.cpu ≤ g.rows.length) :
    minimize env { e with parallel := true } f ftol pm ρ =
      minimize env { e with parallel := false } f ftol pm ρ := by
  have hck : ∀ (rows : List R) (k : ℕ), env.cpu ≤ rows.length →
      checkGeneration env true f k rows = checkGeneration env false f k rows := by
    intro rows k hr
    simp only [checkGeneration, if_true, if_false, Bool.false_eq_true]
    exact parallelApply_eq_applyAlong _ _ _ _ _ hv.cpu hr (hv.sched k)
  have hst : start env { e with parallel := true } f pm ρ =
      start env { e with parallel := false } f pm ρ := by
    unfold start
    cases hg : e.initGen ρ.init with
    | error err => rfl
    | ok g => simp only [hck g.rows 0 (hi _ _ hg)]
  have hsp : ∀ noise t s, step env { e with parallel := true } f ftol ρ noise t s =
      step env { e with parallel := false } f ftol ρ noise t s := by
    intro noise t s
    have ht : truncation env { e with parallel := true } s =
      truncation env { e with parallel := false } s := rfl
    unfold step
    rw [ht]
    split
    · rfl
    · rename_i s1 _
      simp only
      cases noise s1.gen with
      | error err => rfl
      | ok noisy =>
        simp only
        cases e.updatePm s1.pm noisy s1.elite (ρ.learn t) with
        | error err => rfl
        | ok pm' =>
          simp only
          cases hg : e.sample pm' (ρ.sample t) with
          | error err => rfl
          | ok g => simp only [hck g.rows _ (hs _ _ _ hg)]
  have hlp : ∀ noise n t s, loop env { e with parallel := true } f ftol ρ noise n t s =
      loop env { e with parallel := false } f ftol ρ noise n t s := by
    intro noise n
    induction n with
    | zero => intro t s; rfl
    | succ n ih =>
      intro t s
      simp only [loop, hsp]
      split
      · rfl
      · rfl
      · exact ih _ _
  unfold minimize
  rw [hst]
  simp only [hlp]

end

/-- **C13** as stated is false: one individual, two CPUs (an empty chunk is evaluated). -/
theorem C13_refuted : ¬ ∀ (cpu : ℕ) (sched : List ℕ) (f : ℕ → ℕ → ℚ) (rows : List ℕ), 0 < cpu →
    (∀ i < cpu, i ∈ sched) → parallelApply cpu sched f 0 rows = applyAlong f 0 rows := by
  intro h
  have hs : ∀ i < 2, i ∈ [0, 1] := by
    intro i hi; have : i = 0 ∨ i = 1 := by omega
    rcases this with rfl | rfl <;> simp
  obtain ⟨h1, ev, h2⟩ := C13_too_few_rows (R := ℕ) (C := ℚ) 2 [0, 1] (fun _ r => (r : ℚ)) 0 [7]
    (by decide) (by decide) hs
  rw [h 2 [0, 1] _ _ (by decide) hs, h2] at h1
  exact absurd h1 (by simp)

/-- Five individuals, two workers, the second one finishes first. -/
example : ∃ ev, parallelApply 2 [1, 0] (fun k r => (k : ℚ) + r) 10 [5, 4, 3, 2, 1] = .ok ev ∧
    ev.stored = [15, 15, 15, 15, 15] ∧ ev.calls.map Prod.fst = [5, 4, 3, 2, 1] := by
  obtain ⟨_, ev, h1, h2, h3⟩ := C13_parallel_eq_sequential_partial 2 [1, 0]
    (fun k r => (k : ℚ) + r) 10 [5, 4, 3, 2, 1] (by decide) (by decide) (by
      intro i hi; have : i = 0 ∨ i = 1 := by omega
      rcases this with rfl | rfl <;> simp)
  refine ⟨ev, h1, ?_, h3⟩
  rw [h2]; decide +kernel

/-- The concrete UMDAd run: parallel and sequential runs agree. -/
example : Ex.runPar.toOption.map (fun x => (x.1.history, x.1.bestInd)) =
    Ex.run.toOption.map (fun x => (x.1.history, x.1.bestInd)) := by decide +kernel

section
variable {R C : Type} [PyCost C]

/-- **C54** (partial: costs of one numeric type).  The recorded evaluations of a generation are the
values returned by the cost function for its rows, sequentially or in parallel. -/
theorem C54_stored_as_returned_partial [UniformCost C] {env : Env C} (hv : env.Valid) (par : Bool)
    {f : ℕ → R → C} {k : ℕ} {rows : List R} {ev : Evaluated R C}
    (h : checkGeneration env par f k rows = .ok ev) :
    ev.stored.length = rows.length ∧
    ∀ i r c, rows[i]? = some r → ev.stored[i]? = some c → c = f (k + i) r := by
  have hst := check_stored hv h
  refine ⟨by rw [hst, length_callRows], ?_⟩
  intro i r c hr hc
  rw [hst, callRows_getElem?, hr] at hc
  simpa using hc.symm

/-- **C54** exact behaviour for every mixture (sequential evaluation): value `i` is stored after a
cast to the type of the first value returned for the generation. -/
theorem C54_cast_to_first {f : ℕ → R → C} {k : ℕ} {rows : List R} {ev : Evaluated R C}
    (h : applyAlong f k rows = .ok ev) :
    ∃ r0, rows[0]? = some r0 ∧ ev.stored[0]? = some (f k r0) ∧
      ∀ i r, rows[i + 1]? = some r →
        ev.stored[i + 1]? = some (castLike (f k r0) (f (k + (i + 1)) r)) := by
  cases rows with
  | nil => rw [applyAlong_nil] at h; simp at h
  | cons r0 rs =>
    rw [applyAlong_ok _ _ _ (by simp)] at h
    have h := (Except.ok.inj h).symm
    subst h
    have hc : callRows f k (r0 :: rs) = f k r0 :: callRows f (k + 1) rs := by
      simp [callRows, List.mapIdx_cons, Nat.add_assoc, Nat.add_comm 1]
    refine ⟨r0, rfl, by simp [hc, castAll], ?_⟩
    intro i r hr
    have hr : rs[i]? = some r := by simpa using hr
    simp only [hc, castAll, List.getElem?_cons_succ, List.getElem?_map, callRows_getElem?, hr,
      Option.map_some, Nat.add_assoc, Nat.add_comm 1]

end

/-- **C54** the values stored for numbers (sequential evaluation): nothing changes if the first cost
is a float; if it is an integer, integers are kept and every float is replaced by the integer next to
it towards zero. -/
theorem C54_numbers {K R : Type} [Field K] [LinearOrder K] [IsStrictOrderedRing K] [FloorRing K]
    {f : ℕ → R → Num K} {k : ℕ} {rows : List R} {ev : Evaluated R (Num K)}
    (h : applyAlong f k rows = .ok ev) :
    ∃ r0, rows[0]? = some r0 ∧ ∀ i r, rows[i]? = some r → ∃ c : Num K, ev.stored[i]? = some c ∧
      ((∃ q, f k r0 = .flt q) → c = .flt (Num.val (f (k + i) r))) ∧
      (∀ z, f (k + i) r = .int z → Num.val c = (z : K)) ∧
      (∀ q, (∃ z, f k r0 = .int z) → f (k + i) r = .flt q →
        ∃ z : ℤ, c = .int z ∧ |(z : K)| ≤ |q| ∧ |q - z| < 1 ∧ 0 ≤ (z : K) * q) := by
  obtain ⟨r0, h0, hs0, hs⟩ := C54_cast_to_first h
  refine ⟨r0, h0, ?_⟩
  have key : ∀ c0 c : Num K, ((∃ q, c0 = .flt q) → castLike c0 c = .flt (Num.val c)) ∧
      (∀ z, c = .int z → Num.val (castLike c0 c) = (z : K)) ∧
      (∀ q, (∃ z, c0 = .int z) → c = .flt q →
        ∃ z : ℤ, castLike c0 c = .int z ∧ |(z : K)| ≤ |q| ∧ |q - z| < 1 ∧ 0 ≤ (z : K) * q) := by
    intro c0 c
    refine ⟨?_, ?_, ?_⟩
    · rintro ⟨q, rfl⟩; rfl
    · rintro z rfl; cases c0 <;> rfl
    · rintro q ⟨z, rfl⟩ rfl
      refine ⟨Num.truncZ q, rfl, ?_⟩
      unfold Num.truncZ
      split_ifs with hq
      · have h1 := Int.floor_le q
        have h2 := Int.lt_floor_add_one q
        have h3 : (0 : K) ≤ (⌊q⌋ : K) := by exact_mod_cast Int.floor_nonneg.2 hq
        refine ⟨by rw [abs_of_nonneg h3, abs_of_nonneg hq]; exact h1, ?_, mul_nonneg h3 hq⟩
        rw [abs_of_nonneg (by linarith)]; linarith
      · have hq : q < 0 := not_le.1 hq
        have h1 := Int.le_ceil q
        have h2 := Int.ceil_lt_add_one q
        have h3 : (⌈q⌉ : K) ≤ 0 := by exact_mod_cast Int.ceil_le.2 (by simpa using hq.le)
        refine ⟨by rw [abs_of_nonpos h3, abs_of_neg hq]; linarith, ?_,
          mul_nonneg_of_nonpos_of_nonpos h3 hq.le⟩
        rw [abs_of_nonpos (by linarith)]; linarith
  intro i r hr
  cases i with
  | zero =>
    rw [h0] at hr
    cases hr
    refine ⟨_, hs0, ?_⟩
    rw [Nat.add_zero]
    refine ⟨?_, ?_, ?_⟩
    · rintro ⟨q, hq⟩; rw [hq]; rfl
    · intro z hz; rw [hz]; rfl
    · rintro q ⟨z, hz⟩ hq; rw [hz] at hq; cases hq
  | succ i => exact ⟨_, hs i r hr, key _ _⟩

example : ∃ ev, applyAlong (fun k _ => if k = 0 then Num.int 1 else Num.flt (1/2 : ℚ)) 0 [8, 9]
    = .ok ev ∧ ev.stored[1]? = some (castLike (Num.int 1) (Num.flt (1/2 : ℚ))) := by
  obtain ⟨ev, h⟩ : ∃ ev, applyAlong (fun k (_ : ℕ) => if k = 0 then Num.int 1
      else Num.flt (1/2 : ℚ)) 0 [8, 9] = .ok ev := ⟨_, applyAlong_ok _ _ _ (by simp)⟩
  obtain ⟨r0, _, _, h2⟩ := C54_cast_to_first h
  exact ⟨ev, h, by simpa using h2 0 9 rfl⟩

namespace Ex

def envNum : Env (Num ℚ) := { argsort := stableArgsort, cpu := 2, sched := fun _ => [1, 0] }

/-- An `int` for the first individual, a `float` for the others. -/
def costMixed (k : ℕ) (_ : List ℚ) : Num ℚ := if k = 0 then .int 1 else .flt (1/2)

def runMixed : Except PyErr (EdaResult (List ℚ) (Num ℚ) × St (List ℚ) (Num ℚ) (UniBin ℚ)) :=
  minimize envNum eda costMixed (.int 0) pm rand

theorem runMixed_facts : runMixed.toOption.map (fun x => x.1.bestCost) = some (.int 0) := by
  decide +kernel

end Ex

/-- **C54** as stated is false: a UMDAd run whose cost function only returns `1` and `0.5`
reports `best_cost = 0`. -/
theorem C54_refuted : ∃ res s, minimize Ex.envNum Ex.eda Ex.costMixed (.int 0) Ex.pm Ex.rand =
      .ok (res, s) ∧ res.bestCost = .int 0 ∧ ∀ k r, Num.val (Ex.costMixed k r) ≠ 0 := by
  have h := Ex.runMixed_facts
  unfold Ex.runMixed at h
  cases hm : minimize Ex.envNum Ex.eda Ex.costMixed (.int 0) Ex.pm Ex.rand with
  | error err => rw [hm] at h; simp [Except.toOption] at h
  | ok x =>
    rw [hm] at h
    refine ⟨x.1, x.2, rfl, by simpa [Except.toOption] using h, ?_⟩
    intro k r
    unfold Ex.costMixed
    split <;> simp [Num.val]

end Verif
