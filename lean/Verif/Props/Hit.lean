/-
C64: UMDAd with probabilities kept away from 0 and 1 finds every binary string, in particular an optimum,
with probability tending to 1.
-/
import Verif.Props.Binary
import Verif.Props.Longer
import Verif.Props.Loop
import Mathlib.Probability.ProductMeasure
import Mathlib.Analysis.SpecificLimits.Basic
import Mathlib.MeasureTheory.Measure.Lebesgue.Basic

set_option linter.unusedSectionVars false

namespace Verif

open PyCost Spec MeasureTheory

section trace
variable {R C σ Ω : Type} [PyCost C]
variable {env : Env C} {e : Eda R σ Ω} {f : ℕ → R → C} {ftol : C} {pm : σ} {ρ : Rand Ω}

theorem loop_pass (noise : Gen R → Except PyErr (Gen R)) (hnz : e.mkNoise ρ.noise = .ok noise)
    (n t0 t : ℕ) (s0 s : St R C σ) (hv : Visited env e f ftol pm ρ t0 s0)
    (h : loop env e f ftol ρ noise n t0 s0 = .ok s) (h0 : s0.history.length = t0)
    (hl : s0.log.length = t0) (h1 : t0 ≤ t) (h2 : t < s.history.length) :
    ∃ s1 s2 b, Visited env e f ftol pm ρ t s1 ∧ step env e f ftol ρ noise t s1 = .ok (s2, b) ∧
      s1.log.length = t ∧ s2.log <+: s.log := by
  induction n generalizing t0 s0 with
  | zero => simp only [loop, Except.ok.injEq] at h; rw [← h] at h2; omega
  | succ n ih =>
    unfold loop at h
    cases hst : step env e f ftol ρ noise t0 s0 with
    | error err => rw [hst] at h; simp at h
    | ok x =>
      obtain ⟨s', b⟩ := x
      rw [hst] at h
      obtain ⟨_, _, _, _, _, _, hs⟩ := step_ok hst
      have hh : s'.history.length = t0 + 1 := by rw [hs.history]; simp [h0]
      have hl' : s'.log.length = t0 + 1 := by rw [hs.log]; simp [hl]
      rcases Nat.eq_or_lt_of_le h1 with rfl | h1'
      · refine ⟨s0, s', b, hv, hst, hl, ?_⟩
        cases b with
        | true => simp only [Except.ok.injEq] at h; rw [h]
        | false => exact (loop_prefix _ _ _ _ _ h).2
      · cases b with
        | true => simp only [Except.ok.injEq] at h; rw [← h] at h2; omega
        | false => exact ih (t0 + 1) s' (.next hv hnz hst) h hh hl' h1'

/-- Generation `t ≥ 1` of a run that returns was made by a pass of the loop, and the calls recorded for it
are the calls for the individuals of the sampled generation. -/
theorem minimize_pass (hv : env.Valid) {res : EdaResult R C} {s : St R C σ}
    (h : minimize env e f ftol pm ρ = .ok (res, s)) {t : ℕ} (h1 : 1 ≤ t) (h2 : t < res.history.length) :
    ∃ s1 s2 b noise, Visited env e f ftol pm ρ t s1 ∧ e.mkNoise ρ.noise = .ok noise ∧
      step env e f ftol ρ noise t s1 = .ok (s2, b) ∧
      (s.log[t]?).map (List.map Prod.fst) = some s2.gen.rows := by
  obtain ⟨s0, noise, h0, hn, hl, hres⟩ := minimize_ok h
  obtain ⟨_, _, _, _, _, hs⟩ := start_ok h0
  obtain ⟨s1, s2, b, hvis, hst, hlen, hpre⟩ := loop_pass noise hn _ 1 t s0 s (.first h0) hl
    (by rw [hs.history]; rfl) (by rw [hs.log]; rfl) h1 (by rw [hres] at h2; exact h2)
  refine ⟨s1, s2, b, noise, hvis, hn, hst, ?_⟩
  obtain ⟨_, _, ev, _, _, _, hs2⟩ := step_ok hst
  have hget : s2.log[t]? = some ev.calls := by
    rw [hs2.log, List.getElem?_append_right (by omega), hlen]; simp
  obtain ⟨l, hl⟩ := hpre
  rw [← hl, List.getElem?_append_left (by rw [hs2.log]; simp; omega), hget]
  have hc := check_calls hv hs2.check
  rw [hc.2, Option.map_some, Option.some.injEq]
  rw [List.map_fst_zip]
  unfold callRows
  simp

end trace

section hit
variable {K : Type} [Field K] [LinearOrder K] [IsStrictOrderedRing K] [FloorRing K] {C : Type} [PyCost C]
variable {fl : K → K} {cfg : UMDAdCfg K} {env : Env C} {f : ℕ → List K → C} {ftol : C}
variable {ρ : Rand (Draws K)} {e : Eda (List K) (UniBin K) (Draws K)} {b : UniBin K}

namespace Spec

/-- The individual was evaluated in the run. -/
def WasEvaluated {R C σ : Type} (r : R) (s : St R C σ) : Prop := ∃ c, (r, c) ∈ s.log.flatten

end Spec

/-- If the draws of one individual of a generation lie in the box of the target, the target is evaluated
in this generation. -/
theorem umdad_box (hv : env.Valid) (h : UMDAd fl cfg = .ok (e, b)) (hw : cfg.WF)
    {res : EdaResult (List K) C} {s : St (List K) C (UniBin K)}
    (hrun : minimize env e f ftol b ρ = .ok (res, s)) {target : List K}
    (htar : BinaryRow cfg.base.nVars target) {t i : ℕ} (h1 : 1 ≤ t) (h2 : t < res.history.length)
    (hi : (i : ℤ) < cfg.base.sizeGen)
    (hbox : ∀ j x, target[j]? = some x →
      (x = 1 ∧ ρ.sample t i j < cfg.lower) ∨ (x = 0 ∧ cfg.upper ≤ ρ.sample t i j)) :
    ∃ batch, s.log[t]? = some batch ∧ ∃ c, (target, c) ∈ batch := by
  obtain ⟨hm, hlu, hb⟩ := UMDAd_ok h
  have hr := umdad_rows (ρ := ρ) h hw
  obtain ⟨s1, s2, brk, noise, hvis, hnz, hst, hlog⟩ := minimize_pass hv hrun h1 h2
  have hall := allRows_visited hv hr (by rw [hb]; simp) hvis
  obtain ⟨s1', noisy, _, _, _, _, hs⟩ := step_ok hst
  obtain ⟨hg1, he1⟩ := truncation_rows hv (visited_aligned hv hvis) hs.trunc
  have hN := hr.noise noise _ _ hnz (fun r h => (hg1 r h).elim (hall.gen r) (hall.elite r)) hs.noise
  obtain ⟨⟨i1, _, _, i4⟩, hP⟩ := hr.learn _ _ _ _ _ hall.pm hN
    (fun r h => (he1 r h).elim (hall.gen r) (hall.elite r)) hs.update
  have hsm := hs.sample
  rw [hm.sample] at hsm
  obtain ⟨k1, k2, k3, k4, k5⟩ := UniBin.sample_ok hsm
  have hcols : s2.gen.cols = cfg.base.nVars := by rw [k4, i4, i1]; split <;> rfl
  have hmem : target ∈ s2.gen.rows := by
    rw [k5, List.mem_map]
    refine ⟨i, List.mem_range.2 (by omega), ?_⟩
    unfold binRow
    rw [hcols, i1, i4]
    apply List.ext_getElem?
    intro j
    rw [List.getElem?_map]
    rcases Nat.lt_or_ge j cfg.base.nVars with hj | hj
    · rw [List.getElem?_range hj]
      have hj' : j < target.length := by rw [htar.1]; exact hj
      rw [List.getElem?_eq_getElem hj']
      have e1 : (if cfg.base.nVars = 1 then 0 else j) = j := by split <;> omega
      simp only [Option.map_some, Option.some.injEq, e1]
      have hp := hP (s2.pm.p.getD j 0) (by
        rw [List.getD_eq_getElem?_getD, List.getElem?_eq_getElem (by omega)]
        exact List.getElem_mem _)
      rcases hbox j _ (List.getElem?_eq_getElem hj') with ⟨hx, hb⟩ | ⟨hx, hb⟩
      · rw [hx, if_pos (hb.trans_le hp.1)]
      · rw [hx, if_neg (not_lt.2 (hp.2.trans hb))]
    · rw [List.getElem?_eq_none (by simpa using hj), List.getElem?_eq_none (by rw [htar.1]; exact hj)]
      rfl
  cases hg : s.log[t]? with
  | none => rw [hg] at hlog; cases hlog
  | some batch =>
    rw [hg] at hlog
    simp only [Option.map_some, Option.some.injEq] at hlog
    rw [← hlog] at hmem
    obtain ⟨⟨r, c⟩, hrc, rfl⟩ := List.mem_map.1 hmem
    exact ⟨batch, rfl, c, hrc⟩

/-- **C64** if the draws of one individual of one sampled generation lie in the box of the target (below
`lower_bound` where the target has a 1, not below `upper_bound` where it has a 0), the target is evaluated:
whatever was learned before. -/
theorem C64_box (hv : env.Valid) (h : UMDAd fl cfg = .ok (e, b)) (hw : cfg.WF)
    {res : EdaResult (List K) C} {s : St (List K) C (UniBin K)}
    (hrun : minimize env e f ftol b ρ = .ok (res, s)) {target : List K}
    (htar : BinaryRow cfg.base.nVars target) {t i : ℕ} (h1 : 1 ≤ t) (h2 : t < res.history.length)
    (hi : (i : ℤ) < cfg.base.sizeGen)
    (hbox : ∀ j x, target[j]? = some x →
      (x = 1 ∧ ρ.sample t i j < cfg.lower) ∨ (x = 0 ∧ cfg.upper ≤ ρ.sample t i j)) :
    WasEvaluated target s := by
  obtain ⟨batch, hg, c, hc⟩ := umdad_box hv h hw hrun htar h1 h2 hi hbox
  exact ⟨c, List.mem_flatten.2 ⟨batch, List.mem_of_getElem? hg, hc⟩⟩

end hit

section prob
variable {fl : ℝ → ℝ} {cfg : UMDAdCfg ℝ} {env : Env ℝ} {f : ℕ → List ℝ → ℝ} {ftol : ℝ}
variable {ρ : Rand (Draws ℝ)} {e : Eda (List ℝ) (UniBin ℝ) (Draws ℝ)} {b : UniBin ℝ}

namespace Spec

/-- Independent draws with distribution `U`: number `j` for individual `i` of generation `t`. -/
noncomputable def iid (U : Measure ℝ) : Measure (ℕ × ℕ → ℕ → ℝ) :=
  Measure.infinitePi (fun _ : ℕ × ℕ => Measure.infinitePi (fun _ : ℕ => U))

/-- The run uses the draws `ω` for sampling, and arbitrary fixed draws elsewhere. -/
def withDraws (ρ : Rand (Draws ℝ)) (ω : ℕ × ℕ → ℕ → ℝ) : Rand (Draws ℝ) :=
  { ρ with sample := fun t i j => ω (t, i) j }

/-- The distribution of a draw: it is below `lo`, and not below `up`, each with probability at least
`q`. -/
structure Spread (U : Measure ℝ) (lo up : ℝ) (q : ENNReal) : Prop where
  ones : q ≤ U (Set.Iio lo)
  zeros : q ≤ U (Set.Ici up)

/-- The uniform distribution on `[0, 1)`. -/
noncomputable def uniform01 : Measure ℝ := volume.restrict (Set.Ico 0 1)

end Spec

instance : IsProbabilityMeasure uniform01 := ⟨by simp [uniform01]⟩

/-- Uniform draws are spread: probability `min lower (1 - upper)`. -/
theorem uniform_spread {lo up : ℝ} (h1 : lo ≤ 1) (h2 : 0 ≤ up) :
    Spread uniform01 lo up (ENNReal.ofReal (min lo (1 - up))) := by
  constructor
  · rw [uniform01, Measure.restrict_apply measurableSet_Iio, Set.inter_comm, Set.Ico_inter_Iio,
      Real.volume_Ico]
    apply ENNReal.ofReal_le_ofReal
    rw [min_eq_right h1]
    simp
  · rw [uniform01, Measure.restrict_apply measurableSet_Ici, Set.inter_comm]
    have : Set.Ico (0 : ℝ) 1 ∩ Set.Ici up = Set.Ico up 1 := by
      ext x; simp only [Set.mem_inter_iff, Set.mem_Ico, Set.mem_Ici]
      constructor
      · rintro ⟨⟨_, b⟩, c⟩; exact ⟨c, b⟩
      · rintro ⟨a, b⟩; exact ⟨⟨h2.trans a, b⟩, a⟩
    rw [this, Real.volume_Ico]
    exact ENNReal.ofReal_le_ofReal (min_le_right _ _)

/-- The box of one draw. -/
def boxSet (lo up : ℝ) (x : ℝ) : Set ℝ := if x = 1 then Set.Iio lo else Set.Ici up

theorem boxSet_measurable (lo up x : ℝ) : MeasurableSet (boxSet lo up x) := by
  unfold boxSet; split
  · exact measurableSet_Iio
  · exact measurableSet_Ici

/-- The draws of one individual that produce the target, whatever the learned probabilities. -/
def targetBox (cfg : UMDAdCfg ℝ) (target : List ℝ) : Set (ℕ → ℝ) :=
  Set.pi (Finset.range cfg.base.nVars : Set ℕ)
    (fun j => boxSet cfg.lower cfg.upper (target.getD j 0))

theorem targetBox_measurable (target : List ℝ) : MeasurableSet (targetBox cfg target) :=
  MeasurableSet.pi (Finset.countable_toSet _) (fun _ _ => boxSet_measurable _ _ _)

theorem mem_targetBox {target : List ℝ} (htar : BinaryRow cfg.base.nVars target) {u : ℕ → ℝ}
    (hu : u ∈ targetBox cfg target) (j : ℕ) (x : ℝ) (hj : target[j]? = some x) :
    (x = 1 ∧ u j < cfg.lower) ∨ (x = 0 ∧ cfg.upper ≤ u j) := by
  have hjl := (List.getElem?_eq_some_iff.1 hj).1
  have hbin := htar.2 x (List.mem_of_getElem? hj)
  have hmem := hu j (by simpa using by rw [htar.1] at hjl; exact hjl)
  have hgd : target.getD j 0 = x := by rw [List.getD_eq_getElem?_getD, hj]; rfl
  simp only [hgd] at hmem
  rcases hbin with rfl | rfl
  · right
    refine ⟨rfl, ?_⟩
    have : boxSet cfg.lower cfg.upper 0 = Set.Ici cfg.upper := by simp [boxSet]
    rw [this] at hmem
    exact hmem
  · left
    refine ⟨rfl, ?_⟩
    have : boxSet cfg.lower cfg.upper 1 = Set.Iio cfg.lower := by simp [boxSet]
    rw [this] at hmem
    exact hmem

/-- The draws with which none of the individuals `S` is forced to be the target. -/
def missSet (cfg : UMDAdCfg ℝ) (target : List ℝ) (T : ℕ) : Set (ℕ × ℕ → ℕ → ℝ) :=
  Set.pi ((Finset.Ico 1 T ×ˢ Finset.range cfg.base.sizeGen.toNat : Finset (ℕ × ℕ)) : Set (ℕ × ℕ))
    (fun _ => (targetBox cfg target)ᶜ)

theorem missSet_measurable (target : List ℝ) (T : ℕ) : MeasurableSet (missSet cfg target T) :=
  MeasurableSet.pi (Finset.countable_toSet _) (fun _ _ => (targetBox_measurable target).compl)

theorem missSet_measure (U : Measure ℝ) [IsProbabilityMeasure U] {q : ENNReal}
    (hU : Spread U cfg.lower cfg.upper q) (target : List ℝ) (T : ℕ) :
    iid U (missSet cfg target T) ≤ (1 - q ^ cfg.base.nVars) ^ ((T - 1) * cfg.base.sizeGen.toNat) := by
  have hAm := targetBox_measurable (cfg := cfg) target
  have hAq : q ^ cfg.base.nVars ≤ Measure.infinitePi (fun _ : ℕ => U) (targetBox cfg target) := by
    unfold targetBox
    rw [Measure.infinitePi_pi _ (fun j _ => boxSet_measurable _ _ _)]
    calc q ^ cfg.base.nVars = ∏ _j ∈ Finset.range cfg.base.nVars, q := by simp
      _ ≤ _ := by
        apply Finset.prod_le_prod'
        intro j _
        unfold boxSet
        split
        · exact hU.ones
        · exact hU.zeros
  rw [missSet, iid, Measure.infinitePi_pi _ (fun _ _ => hAm.compl), Finset.prod_const]
  have hcard : (Finset.Ico 1 T ×ˢ Finset.range cfg.base.sizeGen.toNat).card =
      (T - 1) * cfg.base.sizeGen.toNat := by simp
  rw [hcard, prob_compl_eq_one_sub hAm]
  exact pow_le_pow_left' (tsub_le_tsub_left hAq 1) _

/-- **C64** `UMDAd` with independent sampling draws: the probability that a run evaluates at least `T`
generations without ever evaluating a given binary string is at most `(1 - q^n)^((T-1) * size_gen)`, where
`q` bounds from below the probabilities of a draw below `lower_bound` and of a draw not below
`upper_bound` (for uniform draws `q = min(lower_bound, 1 - upper_bound)`, `uniform_spread`). -/
theorem C64_miss_probability (hv : env.Valid) (h : UMDAd fl cfg = .ok (e, b)) (hw : cfg.WF)
    (U : Measure ℝ) [IsProbabilityMeasure U] {q : ENNReal} (hU : Spread U cfg.lower cfg.upper q)
    {target : List ℝ} (htar : BinaryRow cfg.base.nVars target) (T : ℕ) :
    iid U {ω | ∃ res s, minimize env e f ftol b (withDraws ρ ω) = .ok (res, s) ∧
        T ≤ res.history.length ∧ ¬ WasEvaluated target s} ≤
      (1 - q ^ cfg.base.nVars) ^ ((T - 1) * cfg.base.sizeGen.toNat) := by
  refine (measure_mono ?_).trans (missSet_measure (cfg := cfg) U hU target T)
  rintro ω ⟨res, s, hrun, hT, hne⟩ ⟨t, i⟩ hti hA'
  simp only [Finset.coe_product, Finset.coe_Ico, Finset.coe_range, Set.mem_prod, Set.mem_Ico,
    Set.mem_Iio] at hti
  exact hne (C64_box hv h hw hrun htar (t := t) (i := i) hti.1.1 (by omega) (by omega)
    (mem_targetBox htar hA'))

/-- All individuals of a `UMDAd` run without `init_data` are binary strings. -/
theorem umdad_binary (h : UMDAd fl cfg = .ok (e, b)) (hw : cfg.WF) (hi : cfg.base.initData = none) :
    RowInv e ρ (BinaryRow cfg.base.nVars) (fun g => Rect cfg.base.nVars g.rows)
      (fun b => b.n = cfg.base.nVars ∧ b.lb = cfg.lower ∧ b.ub = cfg.upper ∧
        b.p.length = cfg.base.nVars)
      (fun b => ∀ x ∈ b.p, cfg.lower ≤ x ∧ x ≤ cfg.upper) := by
  have hr := umdad_rows (ρ := ρ) h hw
  obtain ⟨hm, _, _⟩ := UMDAd_ok h
  obtain ⟨hp, hn⟩ := umdadInit_length hw
  refine ⟨?_, fun nz g g' hnz hg => hr.noise nz g g' hnz (fun r h => (hg r h).1),
    fun pm g el t pm' hI hN hel => hr.learn pm g el t pm' hI hN (fun r h => (hel r h).1), ?_⟩
  · intro g hg
    rw [hm.initNone hi] at hg
    obtain ⟨_, _, _, h4⟩ := C21_sample_binary (by rw [hp, hn]) hg
    rw [hn] at h4
    exact h4
  · intro pm t g hI _ hs
    rw [hm.sample] at hs
    obtain ⟨_, _, _, h4⟩ := C21_sample_binary (by rw [hI.2.2.2, hI.1]) hs
    rw [hI.1] at h4
    exact h4

/-- A run with tolerance 0 that evaluates a minimiser of the cost function reports the minimum. -/
theorem best_of_evaluated (hv : env.Valid) {g : List ℝ → ℝ} {target : List ℝ} {Q : List ℝ → Prop}
    (hg : ∀ r, Q r → g target ≤ g r) {res : EdaResult (List ℝ) ℝ} {s : St (List ℝ) ℝ (UniBin ℝ)}
    (hQ : ∀ p ∈ s.log.flatten, Q p.1)
    (hrun : minimize env e (fun _ => g) 0 b ρ = .ok (res, s)) (hs : WasEvaluated target s) :
    res.bestCost = g target := by
  obtain ⟨hmem, k, r, hk, hr⟩ := C01_best_cost_observed hv hrun
  obtain ⟨hlen, hf, hmin⟩ := C04_history_is_min hv hrun
  have hbest := (C03_zero_tolerance hv (by intro b; simp) hrun).2
  refine le_antisymm ?_ (by rw [hr]; exact hg r (hQ _ (List.mem_of_getElem? hk)))
  obtain ⟨c, hc⟩ := hs
  obtain ⟨i, hi⟩ := List.mem_iff_getElem?.1 hc
  have hcg : c = g target := hf i target c hi
  obtain ⟨batch, hb, hcb⟩ := List.mem_flatten.1 hc
  obtain ⟨t, ht⟩ := List.mem_iff_getElem?.1 hb
  have htl := (List.getElem?_eq_some_iff.1 ht).1
  have hx := List.getElem?_eq_getElem (l := res.history) (i := t) (by omega)
  have h1 := (hmin t _ batch hx ht).2 c (List.mem_map.2 ⟨_, hcb, rfl⟩)
  have h2 := hbest _ (List.getElem_mem (by omega : t < res.history.length))
  simp only [PyCost.lt, decide_eq_false_iff_not, not_lt] at h1 h2
  rw [← hcg]
  exact h2.trans h1

/-- **C64** convergence: for independent draws that are below `lower_bound`, and not below `upper_bound`,
with positive probability (uniform draws if `0 < lower_bound < upper_bound < 1`, `C64_uniform`), any cost
function, and early stopping disabled (`dead_iter = 0`), the probability that `minimize` (with `ftol = 0`)
does not return the minimum of the cost function over the binary strings tends to 0 as `max_iter` grows.
In particular the probability that it raises does. -/
theorem C64_convergence (hv : env.Valid) (hw : cfg.WF)
    (hlu : cfg.lower < cfg.upper) (U : Measure ℝ) [IsProbabilityMeasure U] {q : ENNReal} (hq0 : q ≠ 0)
    (hsp : Spread U cfg.lower cfg.upper q) (hsize : 1 ≤ cfg.base.sizeGen)
    (htr : 1 ≤ selLen fl cfg.base.sizeGen cfg.base.alpha)
    (hinit : cfg.base.initData = none) (hpar : cfg.base.parallel = true → (env.cpu : ℤ) ≤ cfg.base.sizeGen)
    {g : List ℝ → ℝ} {target : List ℝ} (htar : BinaryRow cfg.base.nVars target)
    (hg : ∀ r, BinaryRow cfg.base.nVars r → g target ≤ g r) {ε : ENNReal} (hε : 0 < ε) :
    ∃ M : ℕ, ∀ m : ℕ, M ≤ m → ∃ e b,
      UMDAd fl { cfg with base := { cfg.base with maxIter := m, deadIter := 0 } } = .ok (e, b) ∧
      iid U {ω | ¬ ∃ res s, minimize env e (fun _ => g) 0 b (withDraws ρ ω) = .ok (res, s) ∧
        res.bestCost = g target} ≤ ε := by
  have hlt : 1 - q ^ cfg.base.nVars < 1 :=
    ENNReal.sub_lt_self ENNReal.one_ne_top one_ne_zero (pow_ne_zero _ hq0)
  have hlim := ENNReal.tendsto_pow_atTop_nhds_zero_of_lt_one hlt
  obtain ⟨N, hN⟩ := ((tendsto_order.1 hlim).2 ε hε).exists_forall_of_atTop
  refine ⟨N + 1, fun m hm => ?_⟩
  set cfg' : UMDAdCfg ℝ := { cfg with base := { cfg.base with maxIter := m, deadIter := 0 } } with hc'
  have hw' : cfg'.WF := ⟨hw.vector, hw.data⟩
  have hrunAll : ∀ ω, ∃ e b, UMDAd fl cfg' = .ok (e, b) ∧
      ∃ res s, minimize env e (fun _ => g) 0 b (withDraws ρ ω) = .ok (res, s) := by
    intro ω
    refine C53_UMDAd_never_raises hv hw' ?_ hlu ?_ hsize hpar htr ?_
    · simp [hc']
    · intro d hd; rw [hc'] at hd; simp [hinit] at hd
    · intro k r; simp [IsNum, PyCost.eq]
  obtain ⟨e, b, heb, _⟩ := hrunAll (fun _ _ => 0)
  refine ⟨e, b, heb, ?_⟩
  have hmiss := C64_miss_probability (f := fun _ => g) (ftol := 0) (ρ := ρ) hv heb hw' U hsp
    htar m
  have hsub : {ω | ¬ ∃ res s, minimize env e (fun _ => g) 0 b (withDraws ρ ω) = .ok (res, s) ∧
      res.bestCost = g target} ⊆
      {ω | ∃ res s, minimize env e (fun _ => g) 0 b (withDraws ρ ω) = .ok (res, s) ∧
        m ≤ res.history.length ∧ ¬ WasEvaluated target s} := by
    intro ω hω
    obtain ⟨e', b', heb', res, s, hrun⟩ := hrunAll ω
    rw [heb] at heb'
    obtain ⟨rfl, rfl⟩ := Prod.mk.inj (Except.ok.inj heb')
    refine ⟨res, s, hrun, ?_, fun hs => hω ⟨res, s, hrun, best_of_evaluated hv hg ?_ hrun hs⟩⟩
    rotate_left
    · refine (allRows_minimize hv (umdad_binary heb hw' hinit) ?_ hrun).log
      rw [(UMDAd_ok heb).2.2]; simp
    obtain ⟨hmk, _, _⟩ := UMDAd_ok heb
    have := (C06_dead_iter hrun).2.2 (by rw [hmk.deadIter])
    rw [hmk.maxIter] at this
    have h3 : (m : ℤ) ≤ (res.history.length : ℤ) := by rw [this]; exact le_max_right _ _
    exact_mod_cast h3
  refine (measure_mono hsub).trans (hmiss.trans ?_)
  have hk : N ≤ (m - 1) * cfg'.base.sizeGen.toNat := by
    have h1 : 1 ≤ cfg'.base.sizeGen.toNat := by
      have : (1 : ℤ) ≤ cfg'.base.sizeGen := hsize
      omega
    calc N ≤ m - 1 := by omega
      _ ≤ (m - 1) * cfg'.base.sizeGen.toNat := Nat.le_mul_of_pos_right _ h1
  exact (hN _ hk).le

/-- **C64** for uniform draws. -/
theorem C64_uniform (hv : env.Valid) (hw : cfg.WF) (hlo : 0 < cfg.lower)
    (hlu : cfg.lower < cfg.upper) (hup : cfg.upper < 1) (hsize : 1 ≤ cfg.base.sizeGen)
    (htr : 1 ≤ selLen fl cfg.base.sizeGen cfg.base.alpha)
    (hinit : cfg.base.initData = none) (hpar : cfg.base.parallel = true → (env.cpu : ℤ) ≤ cfg.base.sizeGen)
    {g : List ℝ → ℝ} {target : List ℝ} (htar : BinaryRow cfg.base.nVars target)
    (hg : ∀ r, BinaryRow cfg.base.nVars r → g target ≤ g r) {ε : ENNReal} (hε : 0 < ε) :
    ∃ M : ℕ, ∀ m : ℕ, M ≤ m → ∃ e b,
      UMDAd fl { cfg with base := { cfg.base with maxIter := m, deadIter := 0 } } = .ok (e, b) ∧
      iid uniform01 {ω | ¬ ∃ res s, minimize env e (fun _ => g) 0 b (withDraws ρ ω) = .ok (res, s) ∧
        res.bestCost = g target} ≤ ε := by
  refine C64_convergence hv hw hlu uniform01 ?_ (uniform_spread (hlu.trans hup).le (hlo.trans hlu).le)
    hsize htr hinit hpar htar hg hε
  rw [Ne, ENNReal.ofReal_eq_zero, not_le]
  exact lt_min hlo (by linarith)

/-- Without early stopping the default bounds `0.2`, `0.8` find the string of ones, whatever the cost
function with its minimum there: for instance the number of zeros. -/
noncomputable def realCfg : UMDAdCfg ℝ :=
  { base := { sizeGen := 4, maxIter := 3, deadIter := 0, nVars := 2, alpha := 1/2,
              eliteFactor := 1/4, parallel := false, initData := none, wNoise := none }
    vector := none, lower := 1/5, upper := 4/5 }

noncomputable def realEnv : Env ℝ := { argsort := stableArgsort, cpu := 1, sched := fun _ => [0] }

theorem realEnv_valid : realEnv.Valid where
  argsort := stableArgsort_isArgsort
  cpu := by decide
  sched := by
    intro k i hi
    have hi : i < 1 := hi
    simp [realEnv, Nat.lt_one_iff.1 hi]

example : ∃ M : ℕ, ∀ m : ℕ, M ≤ m → ∃ e b,
    UMDAd id { realCfg with base := { realCfg.base with maxIter := m, deadIter := 0 } } = .ok (e, b) ∧
    iid uniform01 {ω | ¬ ∃ res s, minimize realEnv e (fun _ r => 2 - r.sum) 0 b
      (withDraws ⟨fun _ _ => 0, fun _ _ => 0, fun _ _ _ => 0, fun _ _ _ => 0⟩ ω) = .ok (res, s) ∧
        res.bestCost = 2 - List.sum [1, 1]} ≤ 1 / 100 := by
  refine C64_uniform realEnv_valid ⟨?_, ?_⟩ ?_ ?_ ?_ ?_ ?_ rfl ?_ (g := fun r => 2 - r.sum) ⟨rfl, ?_⟩ ?_ ?_
  · intro v hv; simp [realCfg] at hv
  · intro d hd; simp [realCfg] at hd
  · norm_num [realCfg]
  · norm_num [realCfg]
  · norm_num [realCfg]
  · norm_num [realCfg]
  · norm_num [realCfg, selLen, pyInt, Num.truncZ]
  · intro h; simp [realCfg] at h
  · simp
  · rintro r ⟨hl, hr⟩
    match r, hl with
    | [a, b], _ =>
      simp only [List.mem_cons, List.not_mem_nil, or_false, forall_eq_or_imp, forall_eq] at hr
      rcases hr with ⟨rfl | rfl, rfl | rfl⟩ <;> norm_num
  · simp

end prob

end Verif
