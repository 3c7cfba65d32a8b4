/-
C100: UMDAd with probabilities kept away from 0 and 1 needs on average exponentially many evaluations to find any
given string, whatever the cost function.
-/
import Verif.Props.HitTime
import Verif.Props.Stuck

set_option linter.unusedSectionVars false

namespace Verif

open PyCost Spec MeasureTheory

section
variable {fl : ℝ → ℝ} {cfg : UMDAdCfg ℝ} {env : Env ℝ} {f : ℕ → List ℝ → ℝ} {ftol : ℝ}
variable {ρ : Rand (Draws ℝ)} {e : Eda (List ℝ) (UniBin ℝ) (Draws ℝ)} {b : UniBin ℝ}

namespace Spec

/-- The distribution of a draw: it is below `up`, and not below `lo`, each with probability at most `r`. -/
structure Limited (U : Measure ℝ) (lo up : ℝ) (r : ENNReal) : Prop where
  ones : U (Set.Iio up) ≤ r
  zeros : U (Set.Ici lo) ≤ r

end Spec

/-- Uniform draws: probability `max upper (1 - lower)`. -/
theorem uniform_limited {lo up : ℝ} (h2 : 0 ≤ lo) (h3 : up ≤ 1) :
    Limited uniform01 lo up (ENNReal.ofReal (max up (1 - lo))) := by
  constructor
  · rw [uniform01, Measure.restrict_apply measurableSet_Iio, Set.inter_comm, Set.Ico_inter_Iio,
      Real.volume_Ico]
    apply ENNReal.ofReal_le_ofReal
    rw [min_eq_right h3, sub_zero]
    exact le_max_left _ _
  · rw [uniform01, Measure.restrict_apply measurableSet_Ici, Set.inter_comm]
    have : Set.Ico (0 : ℝ) 1 ∩ Set.Ici lo = Set.Ico lo 1 := by
      ext x; simp only [Set.mem_inter_iff, Set.mem_Ico, Set.mem_Ici]
      constructor
      · rintro ⟨⟨_, b⟩, c⟩; exact ⟨c, b⟩
      · rintro ⟨a, b⟩; exact ⟨⟨h2.trans a, b⟩, a⟩
    rw [this, Real.volume_Ico]
    exact ENNReal.ofReal_le_ofReal (le_max_right _ _)

/-- The draws of one individual that may produce the target, whatever the learned probabilities. -/
def outerBox (cfg : UMDAdCfg ℝ) (target : List ℝ) : Set (ℕ → ℝ) :=
  Set.pi (Finset.range cfg.base.nVars : Set ℕ)
    (fun j => boxSet cfg.upper cfg.lower (target.getD j 0))

theorem outerBox_measurable (target : List ℝ) : MeasurableSet (outerBox cfg target) :=
  MeasurableSet.pi (Finset.countable_toSet _) (fun _ _ => boxSet_measurable _ _ _)

theorem outerBox_measure (U : Measure ℝ) [IsProbabilityMeasure U] {r : ENNReal}
    (hU : Limited U cfg.lower cfg.upper r) (target : List ℝ) :
    Measure.infinitePi (fun _ : ℕ => U) (outerBox cfg target) ≤ r ^ cfg.base.nVars := by
  unfold outerBox
  rw [Measure.infinitePi_pi _ (fun j _ => boxSet_measurable _ _ _)]
  calc _ ≤ ∏ _j ∈ Finset.range cfg.base.nVars, r := by
        apply Finset.prod_le_prod'
        intro j _
        unfold boxSet
        split
        · exact hU.ones
        · exact hU.zeros
    _ = _ := by simp

/-- If the target is evaluated in a generation after the first, the draws of one of its individuals lie in the outer
box. -/
theorem umdad_outer (hv : env.Valid) (h : UMDAd fl cfg = .ok (e, b)) (hw : cfg.WF)
    {res : EdaResult (List ℝ) ℝ} {s : St (List ℝ) ℝ (UniBin ℝ)} {ω : ℕ × ℕ → ℕ → ℝ}
    (hrun : minimize env e f ftol b (withDraws ρ ω) = .ok (res, s)) {target : List ℝ} {t : ℕ} (h1 : 1 ≤ t) {batch : List (List ℝ × ℝ)}
    (hbatch : s.log[t]? = some batch) {c : ℝ} (hc : (target, c) ∈ batch) :
    ∃ i, i < cfg.base.sizeGen.toNat ∧ ω (t, i) ∈ outerBox cfg target := by
  obtain ⟨hm, hlu, hb⟩ := UMDAd_ok h
  have hr := umdad_rows (ρ := withDraws ρ ω) h hw
  have h2 : t < res.history.length := by
    rw [← visited_log_length hrun]; exact (List.getElem?_eq_some_iff.1 hbatch).1
  obtain ⟨s1, s2, brk, noise, hvis, hnz, hst, hlog⟩ := minimize_pass hv hrun h1 h2
  have hall := allRows_visited hv hr (by rw [hb]; simp) hvis
  obtain ⟨s1', noisy, _, _, _, _, hs⟩ := step_ok hst
  obtain ⟨hg1, he1⟩ := truncation_rows hv (visited_aligned hv hvis) hs.trunc
  have hN := hr.noise noise _ _ hnz (fun r h => (hg1 r h).elim (hall.gen r) (hall.elite r)) hs.noise
  obtain ⟨⟨i1, _, _, i4⟩, hP⟩ := hr.learn _ _ _ _ _ hall.pm hN
    (fun r h => (he1 r h).elim (hall.gen r) (hall.elite r)) hs.update
  have hsm := hs.sample
  rw [hm.sample] at hsm
  obtain ⟨k1, k2, k3, k4, k5⟩ := UniBin.sample_ok hsm
  have hcols : s2.gen.cols = cfg.base.nVars := by rw [k4, i4, i1]; split <;> rfl
  rw [hbatch] at hlog
  simp only [Option.map_some, Option.some.injEq] at hlog
  have hmem : target ∈ s2.gen.rows := by
    rw [← hlog]; exact List.mem_map.2 ⟨_, hc, rfl⟩
  rw [k5, List.mem_map] at hmem
  obtain ⟨i, hi, hrow⟩ := hmem
  refine ⟨i, by have := List.mem_range.1 hi; omega, fun j hj => ?_⟩
  have hj : j < cfg.base.nVars := by simpa using hj
  unfold binRow at hrow
  rw [hcols, i1, i4] at hrow
  have e1 : (if cfg.base.nVars = 1 then 0 else j) = j := by split <;> omega
  have hget : target.getD j 0 = if ω (t, i) j < s2.pm.p.getD j 0 then 1 else 0 := by
    rw [← hrow, List.getD_eq_getElem?_getD, List.getElem?_map, List.getElem?_range hj]
    simp only [Option.map_some, Option.getD_some, e1]
    rfl
  have hp := hP (s2.pm.p.getD j 0) (by
    rw [List.getD_eq_getElem?_getD, List.getElem?_eq_getElem (by omega)]
    exact List.getElem_mem _)
  show ω (t, i) j ∈ boxSet cfg.upper cfg.lower (target.getD j 0)
  rw [hget]
  unfold boxSet
  by_cases hlt : ω (t, i) j < s2.pm.p.getD j 0
  · simp only [if_pos hlt, if_true]
    exact hlt.trans_le hp.2
  · simp only [if_neg hlt]
    rw [if_neg (by norm_num)]
    exact hp.1.trans (not_lt.1 hlt)

/-- The draws with which no individual of the generations `1 … T - 1` can be the target. -/
def avoidSet (cfg : UMDAdCfg ℝ) (target : List ℝ) (T : ℕ) : Set (ℕ × ℕ → ℕ → ℝ) :=
  Set.pi ((Finset.Ico 1 T ×ˢ Finset.range cfg.base.sizeGen.toNat : Finset (ℕ × ℕ)) : Set (ℕ × ℕ))
    (fun _ => (outerBox cfg target)ᶜ)

theorem avoidSet_measurable (target : List ℝ) (T : ℕ) : MeasurableSet (avoidSet cfg target T) :=
  MeasurableSet.pi (Finset.countable_toSet _) (fun _ _ => (outerBox_measurable target).compl)

theorem avoidSet_measure (U : Measure ℝ) [IsProbabilityMeasure U] {r : ENNReal}
    (hU : Limited U cfg.lower cfg.upper r) (target : List ℝ) (T : ℕ) :
    (1 - r ^ cfg.base.nVars) ^ ((T - 1) * cfg.base.sizeGen.toNat) ≤ iid U (avoidSet cfg target T) := by
  have hAm := outerBox_measurable (cfg := cfg) target
  rw [avoidSet, iid, Measure.infinitePi_pi _ (fun _ _ => hAm.compl), Finset.prod_const]
  have hcard : (Finset.Ico 1 T ×ˢ Finset.range cfg.base.sizeGen.toNat).card =
      (T - 1) * cfg.base.sizeGen.toNat := by simp
  rw [hcard, prob_compl_eq_one_sub hAm]
  exact pow_le_pow_left' (tsub_le_tsub_left (outerBox_measure U hU target) 1) _

namespace Spec

/-- The individual was evaluated in the run, in a generation after the first. -/
def FoundBySampling {R C σ : Type} (r : R) (s : St R C σ) : Prop :=
  ∃ t batch c, 1 ≤ t ∧ s.log[t]? = some batch ∧ (r, c) ∈ batch

end Spec

/-- **C100** the probability that a run of `UMDAd` samples a given binary string is at most
`(max_iter - 1) * size_gen * r^n`, for every cost function, all draws outside sampling, and independent sampling draws
with `r` an upper bound for the probabilities of a draw below `upper_bound` and of one not below `lower_bound`. -/
theorem C100_found_probability (hv : env.Valid) (h : UMDAd fl cfg = .ok (e, b)) (hw : cfg.WF)
    (U : Measure ℝ) [IsProbabilityMeasure U] {r : ENNReal} (hU : Limited U cfg.lower cfg.upper r)
    (target : List ℝ) :
    iid U {ω | ∃ res s, minimize env e f ftol b (withDraws ρ ω) = .ok (res, s) ∧ FoundBySampling target s} ≤
      ((cfg.base.maxIter.toNat - 1) * cfg.base.sizeGen.toNat : ℕ) * r ^ cfg.base.nVars := by
  set S := Finset.Ico 1 cfg.base.maxIter.toNat ×ˢ Finset.range cfg.base.sizeGen.toNat with hS
  calc _ ≤ iid U (⋃ ti ∈ S, {ω | ω ti ∈ outerBox cfg target}) := by
        refine measure_mono ?_
        rintro ω ⟨res, s, hrun, t, batch, c, h1, hb, hc⟩
        obtain ⟨i, hi, hbox⟩ := umdad_outer hv h hw hrun h1 hb hc
        have hlen := (C05_iterations_bounded hrun).2
        have ht := (List.getElem?_eq_some_iff.1 hb).1
        rw [visited_log_length hrun] at ht
        simp only [Set.mem_iUnion]
        refine ⟨(t, i), ?_, hbox⟩
        rw [hS, Finset.mem_product, Finset.mem_Ico, Finset.mem_range]
        obtain ⟨hm, _, _⟩ := UMDAd_ok h
        refine ⟨⟨h1, ?_⟩, hi⟩
        rw [hm.maxIter] at hlen
        have hlen : (res.history.length : ℤ) ≤ max 1 cfg.base.maxIter := hlen
        show t < cfg.base.maxIter.toNat
        omega
    _ ≤ ∑ ti ∈ S, iid U {ω | ω ti ∈ outerBox cfg target} := measure_biUnion_finset_le _ _
    _ ≤ ∑ _ti ∈ S, r ^ cfg.base.nVars := by
        refine Finset.sum_le_sum fun ti _ => ?_
        have := measurePreserving_eval_infinitePi (fun _ : ℕ × ℕ => Measure.infinitePi (fun _ : ℕ => U)) ti
        rw [iid, show {ω : ℕ × ℕ → ℕ → ℝ | ω ti ∈ outerBox cfg target} =
          Function.eval ti ⁻¹' outerBox cfg target from rfl,
          this.measure_preimage (outerBox_measurable target).nullMeasurableSet]
        exact outerBox_measure U hU target
    _ = _ := by rw [Finset.sum_const, hS]; simp

/-- **C100** the probability that `minimize` returns the minimum of a cost function with a unique minimiser is at most
`(max_iter - 1) * size_gen * r^n`, unless the minimiser is in the first generation. -/
theorem C100_optimum_probability (hv : env.Valid) (h : UMDAd fl cfg = .ok (e, b)) (hw : cfg.WF)
    (hinit : cfg.base.initData = none)
    (U : Measure ℝ) [IsProbabilityMeasure U] {r : ENNReal} (hU : Limited U cfg.lower cfg.upper r)
    {g : List ℝ → ℝ} {target : List ℝ}
    (hg : ∀ x, BinaryRow cfg.base.nVars x → x ≠ target → g target < g x)
    (hfirst : ∀ gen, e.initGen ρ.init = .ok gen → target ∉ gen.rows) :
    iid U {ω | ∃ res s, minimize env e (fun _ => g) ftol b (withDraws ρ ω) = .ok (res, s) ∧
        res.bestCost = g target} ≤
      ((cfg.base.maxIter.toNat - 1) * cfg.base.sizeGen.toNat : ℕ) * r ^ cfg.base.nVars := by
  refine (measure_mono ?_).trans (C100_found_probability (f := fun _ => g) (ftol := ftol) (ρ := ρ) hv h hw U hU target)
  rintro ω ⟨res, s, hrun, hbest⟩
  refine ⟨res, s, hrun, ?_⟩
  obtain ⟨_, k, x, hk, hx⟩ := C01_best_cost_observed hv hrun
  have hbin := (allRows_minimize hv (umdad_binary h hw hinit) (by rw [(UMDAd_ok h).2.2]; simp) hrun).log
    _ (List.mem_of_getElem? hk)
  have hxt : x = target := by
    by_contra hne
    have := hg x hbin hne
    rw [hbest] at hx
    exact this.ne hx
  subst hxt
  obtain ⟨batch, hb, hcb⟩ := List.mem_flatten.1 (List.mem_of_getElem? hk)
  obtain ⟨t, ht⟩ := List.mem_iff_getElem?.1 hb
  refine ⟨t, batch, _, ?_, ht, hcb⟩
  rcases Nat.eq_zero_or_pos t with rfl | h0
  · obtain ⟨gen, batch', h1, h2, h3⟩ := first_batch hv hrun
    rw [ht] at h2
    obtain rfl := Option.some.inj h2
    exact absurd (by rw [← h3]; exact List.mem_map.2 ⟨_, hcb, rfl⟩) (hfirst gen h1)
  · exact h0

theorem takeWhile_all {α : Type} {p : α → Bool} {l : List α} {T : ℕ} (hT : T < l.length)
    (h : ∀ t a, t ≤ T → l[t]? = some a → p a = true) : T < (l.takeWhile p).length := by
  induction l generalizing T with
  | nil => simp at hT
  | cons x xs ih =>
    rw [List.takeWhile_cons, if_pos (h 0 x (Nat.zero_le _) rfl), List.length_cons]
    cases T with
    | zero => omega
    | succ T =>
      have := ih (T := T) (by simpa using hT) (fun t a ht ha => h (t + 1) a (by omega) (by simpa using ha))
      omega

/-- **C100** without early stopping (`dead_iter = 0`) the expected number of generations that `UMDAd` evaluates before
the first one that contains the target is at least the sum of `((1 - r^n)^size_gen)^T` over `T < max_iter`, unless the
target is in the first generation. -/
theorem C100_expected_generations (hv : env.Valid) (hw : cfg.WF) (hlu : cfg.lower < cfg.upper)
    (U : Measure ℝ) [IsProbabilityMeasure U] {r : ENNReal} (hU : Limited U cfg.lower cfg.upper r)
    (hsize : 1 ≤ cfg.base.sizeGen) (htr : 1 ≤ selLen fl cfg.base.sizeGen cfg.base.alpha)
    (hinit : cfg.base.initData = none) (hpar : cfg.base.parallel = true → (env.cpu : ℤ) ≤ cfg.base.sizeGen)
    (target : List ℝ) (hfirst : ∀ gen, (umdadInit cfg).sample cfg.base.sizeGen ρ.init = .ok gen → target ∉ gen.rows)
    (m : ℕ) :
    ∃ e b, UMDAd fl { cfg with base := { cfg.base with maxIter := m, deadIter := 0 } } = .ok (e, b) ∧
      ∑ T ∈ Finset.range m, ((1 - r ^ cfg.base.nVars) ^ cfg.base.sizeGen.toNat) ^ T ≤
        ∫⁻ ω, (waiting target (minimize env e f ftol b (withDraws ρ ω)) : ENNReal) ∂(iid U) := by
  classical
  set cfg' : UMDAdCfg ℝ := { cfg with base := { cfg.base with maxIter := m, deadIter := 0 } } with hc'
  have hw' : cfg'.WF := ⟨hw.vector, hw.data⟩
  have hrunAll : ∀ ω, ∃ e b, UMDAd fl cfg' = .ok (e, b) ∧
      ∃ res s, minimize env e f ftol b (withDraws ρ ω) = .ok (res, s) := by
    intro ω
    refine C53_UMDAd_never_raises hv hw' ?_ hlu ?_ hsize hpar htr ?_
    · simp [hc']
    · intro d hd; rw [hc'] at hd; simp [hinit] at hd
    · intro k r; simp [IsNum, PyCost.eq]
  obtain ⟨e, b, heb, _⟩ := hrunAll (fun _ _ => 0)
  refine ⟨e, b, heb, ?_⟩
  have hU' : Limited U cfg'.lower cfg'.upper r := hU
  obtain ⟨hmk, _, _⟩ := UMDAd_ok heb
  have key : ∀ ω (T : ℕ), T < m → ω ∈ avoidSet cfg' target (T + 1) →
      T < waiting target (minimize env e f ftol b (withDraws ρ ω)) := by
    intro ω T hT hav
    obtain ⟨e', b', heb', res, s, hrun⟩ := hrunAll ω
    rw [heb] at heb'
    obtain ⟨rfl, rfl⟩ := Prod.mk.inj (Except.ok.inj heb')
    rw [hrun]
    show T < generationsBefore target s
    have hlen := (C06_dead_iter hrun).2.2 (by rw [hmk.deadIter])
    rw [hmk.maxIter] at hlen
    have hlen : (res.history.length : ℤ) = max 1 (m : ℤ) := hlen
    rw [← visited_log_length hrun] at hlen
    unfold generationsBefore
    refine takeWhile_all (by omega) fun t batch ht hb => ?_
    rw [decide_eq_true_iff]
    intro c hc
    rcases Nat.eq_zero_or_pos t with rfl | h0
    · obtain ⟨gen, batch', h1, h2, h3⟩ := first_batch hv hrun
      rw [hb] at h2
      obtain rfl := Option.some.inj h2
      rw [hmk.initNone hinit] at h1
      exact hfirst gen h1 (by rw [← h3]; exact List.mem_map.2 ⟨_, hc, rfl⟩)
    · obtain ⟨i, hi, hbox⟩ := umdad_outer hv heb hw' hrun h0 hb hc
      exact hav (t, i) (by
        simp only [Finset.coe_product, Finset.coe_Ico, Finset.coe_range, Set.mem_prod, Set.mem_Ico, Set.mem_Iio]
        exact ⟨⟨h0, by omega⟩, hi⟩) hbox
  calc ∑ T ∈ Finset.range m, ((1 - r ^ cfg.base.nVars) ^ cfg.base.sizeGen.toNat) ^ T
      ≤ ∑ T ∈ Finset.range m, iid U (avoidSet cfg' target (T + 1)) := by
        refine Finset.sum_le_sum fun T _ => ?_
        refine le_trans (le_of_eq ?_) (avoidSet_measure U hU' target (T + 1))
        rw [Nat.add_sub_cancel, ← pow_mul, mul_comm]
    _ = ∫⁻ ω, ∑ T ∈ Finset.range m, (avoidSet cfg' target (T + 1)).indicator 1 ω ∂(iid U) := by
        rw [lintegral_finsetSum _ fun T _ => measurable_one.indicator (avoidSet_measurable target (T + 1))]
        refine Finset.sum_congr rfl fun T _ => ?_
        rw [lintegral_indicator_one (avoidSet_measurable target (T + 1))]
    _ ≤ _ := by
        refine lintegral_mono fun ω => ?_
        set w := waiting target (minimize env e f ftol b (withDraws ρ ω)) with hwd
        calc ∑ T ∈ Finset.range m, (avoidSet cfg' target (T + 1)).indicator 1 ω
            ≤ ∑ T ∈ Finset.range m, if T < w then (1 : ENNReal) else 0 := by
              refine Finset.sum_le_sum fun T hT => ?_
              by_cases hav : ω ∈ avoidSet cfg' target (T + 1)
              · rw [Set.indicator_of_mem hav, if_pos (key ω T (Finset.mem_range.1 hT) hav)]
                exact le_rfl
              · rw [Set.indicator_of_notMem hav]
                exact bot_le
          _ = ((Finset.range m).filter (· < w)).card := by rw [Finset.sum_boole]
          _ ≤ (Finset.range w).card := by
              exact_mod_cast Finset.card_le_card fun T hT => Finset.mem_range.2 (Finset.mem_filter.1 hT).2
          _ = w := by simp

theorem one_le_pow_add {a : ENNReal} (k : ℕ) : 1 ≤ (1 - a) ^ k + k * a := by
  have hx : 1 ≤ (1 - a) + a := le_tsub_add
  have hx1 : 1 - a ≤ 1 := tsub_le_self
  induction k with
  | zero => simp
  | succ k ih =>
    calc 1 ≤ (1 - a) + a := hx
      _ = (1 - a) * 1 + a := by rw [mul_one]
      _ ≤ (1 - a) * ((1 - a) ^ k + k * a) + a := by gcongr
      _ = (1 - a) ^ (k + 1) + (1 - a) * (k * a) + a := by ring
      _ ≤ (1 - a) ^ (k + 1) + 1 * (k * a) + a := by gcongr
      _ = _ := by push_cast; ring

/-- **C100** the expected number of evaluations before the generation that finds the target is, for `max_iter` large
enough, above every number smaller than `1 / r^n`: exponential in the number of variables if `r < 1`. -/
theorem C100_exponential (hv : env.Valid) (hw : cfg.WF) (hlu : cfg.lower < cfg.upper)
    (U : Measure ℝ) [IsProbabilityMeasure U] {r : ENNReal} (hU : Limited U cfg.lower cfg.upper r)
    (hsize : 1 ≤ cfg.base.sizeGen) (htr : 1 ≤ selLen fl cfg.base.sizeGen cfg.base.alpha)
    (hinit : cfg.base.initData = none) (hpar : cfg.base.parallel = true → (env.cpu : ℤ) ≤ cfg.base.sizeGen)
    (target : List ℝ) (hfirst : ∀ gen, (umdadInit cfg).sample cfg.base.sizeGen ρ.init = .ok gen → target ∉ gen.rows)
    {M : ENNReal} (hM : M < (r ^ cfg.base.nVars)⁻¹) :
    ∃ m₀ : ℕ, ∀ m : ℕ, m₀ ≤ m → ∃ e b,
      UMDAd fl { cfg with base := { cfg.base with maxIter := m, deadIter := 0 } } = .ok (e, b) ∧
      M < cfg.base.sizeGen.toNat *
        ∫⁻ ω, (waiting target (minimize env e f ftol b (withDraws ρ ω)) : ENNReal) ∂(iid U) := by
  set a := r ^ cfg.base.nVars with ha
  set N := cfg.base.sizeGen.toNat with hN
  have hN0 : (N : ENNReal) ≠ 0 := by
    have : N ≠ 0 := by omega
    exact_mod_cast this
  have hsum : M < N * ∑' T : ℕ, ((1 - a) ^ N) ^ T := by
    rw [ENNReal.tsum_geometric]
    refine hM.trans_le ?_
    have h1 : 1 - (1 - a) ^ N ≤ N * a := by
      rw [tsub_le_iff_left]; exact one_le_pow_add N
    calc a⁻¹ = N * ((N : ENNReal)⁻¹ * a⁻¹) := by
          rw [← mul_assoc, ENNReal.mul_inv_cancel hN0 (ENNReal.natCast_ne_top N), one_mul]
      _ = N * (N * a)⁻¹ := by
          rw [ENNReal.mul_inv (Or.inl hN0) (Or.inl (ENNReal.natCast_ne_top N))]
      _ ≤ _ := by gcongr
  have hlim : Filter.Tendsto (fun m : ℕ => (N : ENNReal) * ∑ T ∈ Finset.range m, ((1 - a) ^ N) ^ T) Filter.atTop
      (nhds (N * ∑' T : ℕ, ((1 - a) ^ N) ^ T)) :=
    ENNReal.Tendsto.const_mul (ENNReal.tendsto_nat_tsum _) (Or.inr (ENNReal.natCast_ne_top N))
  obtain ⟨m₀, hm₀⟩ := ((tendsto_order.1 hlim).1 M hsum).exists_forall_of_atTop
  refine ⟨m₀, fun m hm => ?_⟩
  obtain ⟨e, b, he, hle⟩ := C100_expected_generations (fl := fl) (f := f) (ftol := ftol) hv hw hlu U hU hsize htr hinit
    hpar target hfirst m
  exact ⟨e, b, he, (hm₀ m hm).trans_le (by gcongr)⟩

end

/-! ### Concrete cases -/

namespace Ex

/-- 100 bits, 100 individuals, 1000 iterations, the default bounds 0.2 and 0.8. -/
noncomputable def hundred : UMDAdCfg ℝ :=
  { base := { sizeGen := 100, maxIter := 1000, deadIter := 0, nVars := 100, alpha := 1/2,
              eliteFactor := 1/4, parallel := false, initData := none, wNoise := none }
    vector := none, lower := 1/5, upper := 4/5 }

theorem hundred_wf : hundred.WF := ⟨by intro v hv; simp [hundred] at hv, by intro d hd; simp [hundred] at hd⟩

/-- Draws with which the first generation consists of zeros. -/
noncomputable def allZeros : Rand (Draws ℝ) := ⟨fun _ _ => 9/10, fun _ _ => 0, fun _ _ _ => 0, fun _ _ _ => 0⟩

theorem hundred_first (gen : Gen (List ℝ))
    (h : (umdadInit hundred).sample hundred.base.sizeGen allZeros.init = .ok gen) :
    List.replicate 100 (1 : ℝ) ∉ gen.rows := by
  obtain ⟨_, _, _, h4, h5⟩ := UniBin.sample_ok h
  rw [h5, List.mem_map]
  rintro ⟨i, _, hi⟩
  have := congrArg (fun l : List ℝ => l[0]?) hi
  have hc : gen.cols = 100 := by rw [h4]; simp [umdadInit, uniBinInit, hundred]
  unfold binRow at this
  rw [hc] at this
  simp only [List.getElem?_map, List.getElem?_range (show 0 < 100 by norm_num), Option.map_some,
    List.getElem?_replicate] at this
  norm_num [umdadInit, uniBinInit, hundred, allZeros] at this

end Ex

/-- C100: whatever the cost function, 1000 iterations with 100 individuals find the string of ones with a
probability of at most 0.0001. -/
example : ∃ e b, UMDAd id Ex.hundred = .ok (e, b) ∧ ∀ (f : ℕ → List ℝ → ℝ) (ftol : ℝ) (ρ : Rand (Draws ℝ)),
    iid uniform01 {ω | ∃ res s, minimize realEnv e f ftol b (withDraws ρ ω) = .ok (res, s) ∧
      FoundBySampling (List.replicate 100 1) s} ≤ ENNReal.ofReal (1 / 10000) := by
  obtain ⟨e, b, h, _⟩ := C53_UMDAd_never_raises (fl := id) (cfg := Ex.hundred) (env := realEnv)
    (f := fun _ _ => (0 : ℝ)) (ftol := 0) (ρ := Ex.allZeros) realEnv_valid Ex.hundred_wf
    (by simp [Ex.hundred]) (by norm_num [Ex.hundred]) (by intro d hd; simp [Ex.hundred] at hd)
    (by norm_num [Ex.hundred]) (by intro h; simp [Ex.hundred] at h)
    (by norm_num [Ex.hundred, selLen, pyInt, Num.truncZ]) (by intro k r; simp [IsNum, PyCost.eq])
  refine ⟨e, b, h, fun f ftol ρ => ?_⟩
  refine (C100_found_probability realEnv_valid h Ex.hundred_wf uniform01
    (uniform_limited (by norm_num [Ex.hundred]) (by norm_num [Ex.hundred])) _).trans ?_
  rw [← ENNReal.ofReal_pow (le_max_of_le_left (by norm_num [Ex.hundred])), ← ENNReal.ofReal_natCast,
    ← ENNReal.ofReal_mul (Nat.cast_nonneg _)]
  refine ENNReal.ofReal_le_ofReal ?_
  norm_num [Ex.hundred, show Int.toNat 1000 = 1000 from rfl, show Int.toNat 100 = 100 from rfl]

/-- C100: if the first generation consists of zeros, the expected number of evaluations before the string of ones is
found exceeds four thousand million, even on the number of zeros (`one_max`). -/
example : ∃ m₀ : ℕ, ∀ m : ℕ, m₀ ≤ m → ∃ e b,
    UMDAd id { Ex.hundred with base := { Ex.hundred.base with maxIter := m, deadIter := 0 } } = .ok (e, b) ∧
    ENNReal.ofReal (4 * 10 ^ 9) < 100 *
      ∫⁻ ω, (waiting (List.replicate 100 1) (minimize realEnv e (fun _ r => 100 - r.sum) 0 b
        (withDraws Ex.allZeros ω)) : ENNReal) ∂(iid uniform01) := by
  have h := C100_exponential (fl := id) (cfg := Ex.hundred) (env := realEnv) (f := fun _ r => 100 - r.sum) (ftol := 0)
    (ρ := Ex.allZeros) (M := ENNReal.ofReal (4 * 10 ^ 9)) realEnv_valid Ex.hundred_wf (by norm_num [Ex.hundred]) uniform01
    (uniform_limited (by norm_num [Ex.hundred]) (by norm_num [Ex.hundred])) (by norm_num [Ex.hundred])
    (by norm_num [Ex.hundred, selLen, pyInt, Num.truncZ]) rfl (by intro h; simp [Ex.hundred] at h)
    (List.replicate 100 1) Ex.hundred_first (by
      rw [← ENNReal.ofReal_pow (le_max_of_le_left (by norm_num [Ex.hundred])), ← ENNReal.ofReal_inv_of_pos
        (by norm_num [Ex.hundred])]
      refine (ENNReal.ofReal_lt_ofReal_iff (by norm_num [Ex.hundred])).2 ?_
      norm_num [Ex.hundred])
  exact h

end Verif
