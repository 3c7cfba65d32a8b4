/-
C76: UMDAc and PBIL leave every bounded region with probability tending to 1.
-/
import Verif.Props.Hit
import Verif.Props.Continuous
import Verif.Lemmas.Law

set_option linter.unusedSectionVars false

namespace Verif

open PyCost Spec MeasureTheory ProbabilityTheory

section run
variable {K : Type} [Field K] [LinearOrder K] [IsStrictOrderedRing K] [FloorRing K] {C : Type} [PyCost C]
variable {fl sq : K → K} {cfg : UMDAcCfg K} {env : Env C} {f : ℕ → List K → C} {ftol : C}
variable {ρ : Rand (Draws K)} {e : Eda (List K) (UniGauss K) (Draws K)} {b : UniGauss K}

namespace Spec

/-- The run evaluated an individual whose variable `j` is outside of `[l, u]`. -/
def EvaluatedOutside {C σ : Type} (j : ℕ) (l u : K) (s : St (List K) C σ) : Prop :=
  ∃ p ∈ s.log.flatten, ∃ x, p.1[j]? = some x ∧ (x < l ∨ u < x)

end Spec

/-- What is used of `learn`: size and minimal deviation stay, no learned deviation is below the minimum. -/
def Floors (n : ℕ) (lb : K)
    (learn : UniGauss K → Gen (List K) → Gen (List K) → Draws K → Except PyErr (UniGauss K)) : Prop :=
  ∀ b g el ω b', b.n = n → b.lb = lb → learn b g el ω = .ok b' → b'.Good n lb ∧ ∀ s ∈ b'.std, lb ≤ s

theorem floors_learn (hsq : IsSqrt sq) {n : ℕ} (hn : 0 < n) (lb : K) :
    Floors n lb (fun b g _ (_ : Draws K) => b.learn sq g) := by
  intro b g _ _ b' h1 h2 h
  have h0 : b.n ≠ 0 := by omega
  simp only at h
  unfold UniGauss.learn at h
  rw [if_neg h0] at h
  split at h
  · cases h
  split at h
  · cases h
  obtain rfl := Except.ok.inj h
  refine ⟨⟨h1, h2, by simp [h1], by simp [h1], ?_⟩, ?_⟩
  · intro s hs
    obtain ⟨j, _, rfl⟩ := List.mem_map.1 hs
    exact (floorStd_colStd hsq _ _ _).1
  · intro s hs
    obtain ⟨j, _, rfl⟩ := List.mem_map.1 hs
    rw [← h2]
    exact (floorStd_colStd hsq _ _ _).2

theorem floors_learnAdapt (hsq : IsSqrt sq) {n : ℕ} (hn : 0 < n) (lb alpha : K) :
    Floors n lb (fun b g _ (_ : Draws K) => b.learnAdapt sq alpha g) := by
  intro b g _ _ b' h1 h2 h
  have h0 : b.n ≠ 0 := by omega
  simp only at h
  unfold UniGauss.learnAdapt at h
  rw [if_neg h0] at h
  split at h
  · cases h
  split at h
  · obtain rfl := Except.ok.inj h
    refine ⟨⟨h1, h2, by simp [h1], by simp [h1], ?_⟩, ?_⟩
    · intro s hs
      obtain ⟨j, _, rfl⟩ := List.mem_map.1 hs
      exact (floorStd_colStd hsq _ _ _).1
    · intro s hs
      obtain ⟨j, _, rfl⟩ := List.mem_map.1 hs
      rw [← h2]
      exact (floorStd_colStd hsq _ _ _).2
  · cases h

theorem leave_box (hv : env.Valid) {base : BaseCfg K (List K)}
    {learn : UniGauss K → Gen (List K) → Gen (List K) → Draws K → Except PyErr (UniGauss K)}
    (h : mkCont fl base cfg learn = .ok (e, b)) (hlf : 0 < cfg.lowerFactor)
    (hl : Floors cfg.base.nVars cfg.lowerFactor learn)
    {res : EdaResult (List K) C} {s : St (List K) C (UniGauss K)}
    (hrun : minimize env e f ftol b ρ = .ok (res, s)) {j : ℕ} (hj : j < cfg.base.nVars) {l u : K} (hlu : l ≤ u)
    {t i i' : ℕ} (h1 : 1 ≤ t) (h2 : t < res.history.length) (hi : (i : ℤ) < cfg.base.sizeGen)
    (hi' : (i' : ℤ) < cfg.base.sizeGen) (hup : (u - l) / (2 * cfg.lowerFactor) < ρ.sample t i j)
    (hlo : ρ.sample t i' j < -((u - l) / (2 * cfg.lowerFactor))) : EvaluatedOutside j l u s := by
  obtain ⟨hmk, _, hb⟩ := mkCont_ok h
  have hm := mkEda_ok hmk
  obtain ⟨s1, s2, brk, noise, hvis, hnz, hst, hlog⟩ := minimize_pass hv hrun h1 h2
  have hpm : s1.pm.n = cfg.base.nVars ∧ s1.pm.lb = cfg.lowerFactor := by
    refine visited_inv (fun s => s.pm.n = cfg.base.nVars ∧ s.pm.lb = cfg.lowerFactor) ?_ ?_ hvis
    · intro s0 h0
      obtain ⟨_, _, _, _, _, hs⟩ := start_ok h0
      rw [hs.pm, hb]; exact ⟨rfl, rfl⟩
    · intro noise t s s' b' hi _ hst
      obtain ⟨s1, noisy, _, _, _, _, hs⟩ := step_ok hst
      have hu := hs.update
      rw [hm.updatePm] at hu
      have := (hl _ _ _ _ _ hi.1 hi.2 hu).1
      exact ⟨this.n, this.lb⟩
  obtain ⟨s1', noisy, _, _, _, _, hs⟩ := step_ok hst
  have hu := hs.update
  rw [hm.updatePm] at hu
  obtain ⟨hgood, hstd⟩ := hl _ _ _ _ _ hpm.1 hpm.2 hu
  have hsm := hs.sample
  rw [hm.sample] at hsm
  simp only at hsm
  rw [UniGauss.sample_eq hgood (by omega)] at hsm
  have hrows := congrArg Gen.rows (Except.ok.inj hsm)
  simp only at hrows
  have hm' : j < s2.pm.mean.length := by rw [hgood.mean]; exact hj
  have hs' : j < s2.pm.std.length := by rw [hgood.std]; exact hj
  have hsj := hstd _ (List.getElem_mem hs')
  have hsd : s2.pm.std.getD j 0 = s2.pm.std[j] := by
    rw [List.getD_eq_getElem?_getD, List.getElem?_eq_getElem hs']; rfl
  have hmem : ∀ k : ℕ, (k : ℤ) < cfg.base.sizeGen → ∃ p ∈ s.log.flatten,
      p.1[j]? = some (s2.pm.mean.getD j 0 + s2.pm.std.getD j 0 * ρ.sample t k j) := by
    intro k hk
    cases hg : s.log[t]? with
    | none => rw [hg] at hlog; cases hlog
    | some batch =>
      rw [hg] at hlog
      simp only [Option.map_some, Option.some.injEq] at hlog
      have : (List.range cfg.base.nVars).map (fun j =>
          s2.pm.mean.getD j 0 + s2.pm.std.getD j 0 * ρ.sample t k j) ∈ batch.map Prod.fst := by
        rw [hlog, ← hrows]
        exact List.mem_map.2 ⟨k, List.mem_range.2 (by omega), rfl⟩
      obtain ⟨p, hp, he⟩ := List.mem_map.1 this
      refine ⟨p, List.mem_flatten.2 ⟨batch, List.mem_of_getElem? hg, hp⟩, ?_⟩
      rw [he, List.getElem?_map, List.getElem?_range hj]
      rfl
  have hlf2 : 0 < 2 * cfg.lowerFactor := by linarith
  rw [div_lt_iff₀ hlf2] at hup
  rw [lt_neg, div_lt_iff₀ hlf2] at hlo
  rw [hsd] at hmem
  generalize s2.pm.mean.getD j 0 = m at hmem
  generalize s2.pm.std[j] = d at hmem hsj
  rcases le_or_gt (l + u) (2 * m) with hmid | hmid
  · obtain ⟨p, hp, hx⟩ := hmem i hi
    refine ⟨p, hp, _, hx, .inr ?_⟩
    have hz : 0 < ρ.sample t i j := by
      by_contra hz
      have := mul_nonpos_of_nonpos_of_nonneg (not_lt.1 hz) hlf2.le
      linarith
    have := mul_le_mul_of_nonneg_right hsj hz.le
    linarith
  · obtain ⟨p, hp, hx⟩ := hmem i' hi'
    refine ⟨p, hp, _, hx, .inl ?_⟩
    have hz : 0 < -ρ.sample t i' j := by
      by_contra hz
      have := mul_nonpos_of_nonpos_of_nonneg (not_lt.1 hz) hlf2.le
      linarith
    have := mul_le_mul_of_nonneg_right hsj hz.le
    linarith

/-- **C76** `UMDAc`: if in some generation after the first the draw of variable `j` is above
`(u - l) / (2 * lower_factor)` for one individual and below its negative for another one, then an individual
whose variable `j` is outside of `[l, u]` is evaluated. -/
theorem C76_UMDAc_box (hv : env.Valid) (hsq : IsSqrt sq) (h : UMDAc fl sq cfg = .ok (e, b))
    (hlf : 0 < cfg.lowerFactor) {res : EdaResult (List K) C} {s : St (List K) C (UniGauss K)}
    (hrun : minimize env e f ftol b ρ = .ok (res, s)) {j : ℕ} (hj : j < cfg.base.nVars) {l u : K} (hlu : l ≤ u)
    {t i i' : ℕ} (h1 : 1 ≤ t) (h2 : t < res.history.length) (hi : (i : ℤ) < cfg.base.sizeGen)
    (hi' : (i' : ℤ) < cfg.base.sizeGen) (hup : (u - l) / (2 * cfg.lowerFactor) < ρ.sample t i j)
    (hlo : ρ.sample t i' j < -((u - l) / (2 * cfg.lowerFactor))) : EvaluatedOutside j l u s :=
  leave_box hv h hlf (floors_learn hsq (by omega) _) hrun hj hlu h1 h2 hi hi' hup hlo

/-- **C76** `PBIL`: if in some generation after the first the draw of variable `j` is above
`(u - l) / (2 * lower_factor)` for one individual and below its negative for another one, then an individual
whose variable `j` is outside of `[l, u]` is evaluated. -/
theorem C76_PBIL_box (hv : env.Valid) (hsq : IsSqrt sq) (h : PBIL fl sq cfg = .ok (e, b))
    (hlf : 0 < cfg.lowerFactor) {res : EdaResult (List K) C} {s : St (List K) C (UniGauss K)}
    (hrun : minimize env e f ftol b ρ = .ok (res, s)) {j : ℕ} (hj : j < cfg.base.nVars) {l u : K} (hlu : l ≤ u)
    {t i i' : ℕ} (h1 : 1 ≤ t) (h2 : t < res.history.length) (hi : (i : ℤ) < cfg.base.sizeGen)
    (hi' : (i' : ℤ) < cfg.base.sizeGen) (hup : (u - l) / (2 * cfg.lowerFactor) < ρ.sample t i j)
    (hlo : ρ.sample t i' j < -((u - l) / (2 * cfg.lowerFactor))) : EvaluatedOutside j l u s :=
  leave_box hv h hlf (floors_learnAdapt hsq (by omega) _ _) hrun hj hlu h1 h2 hi hi' hup hlo

end run

section prob
variable {fl : ℝ → ℝ} {cfg : UMDAcCfg ℝ} {env : Env ℝ} {f : ℕ → List ℝ → ℝ} {ftol : ℝ}
variable {ρ : Rand (Draws ℝ)} {e : Eda (List ℝ) (UniGauss ℝ) (Draws ℝ)} {b : UniGauss ℝ}

namespace Spec

/-- Draws for the generations that are independent of each other, each with the distribution `D`. -/
noncomputable def eachGen (D : Measure (Draws ℝ)) : Measure (ℕ → Draws ℝ) := Measure.infinitePi (fun _ => D)

/-- Independent standard normal draws for one generation. -/
noncomputable def normalDraws : Measure (Draws ℝ) :=
  Measure.infinitePi (fun _ : ℕ => Measure.infinitePi (fun _ : ℕ => gaussianReal 0 1))

/-- Two of the first individuals get draws on both sides, for variable `j`. -/
def bothSides (j : ℕ) (c : ℝ) : Set (Draws ℝ) := {z | c < z 0 j ∧ z 1 j < -c}

end Spec

theorem bothSides_measurable (j : ℕ) (c : ℝ) : MeasurableSet (bothSides j c) := by
  have h : ∀ i, Measurable (fun z : Draws ℝ => z i j) := fun i =>
    (measurable_pi_apply j).comp (measurable_pi_apply i)
  exact (measurableSet_lt measurable_const (h 0)).inter (measurableSet_lt (h 1) measurable_const)

/-- The probability that all of the first `T` generations after the first one stay inside. -/
theorem leave_probability (hv : env.Valid) {base : BaseCfg ℝ (List ℝ)}
    {learn : UniGauss ℝ → Gen (List ℝ) → Gen (List ℝ) → Draws ℝ → Except PyErr (UniGauss ℝ)}
    (h : mkCont fl base cfg learn = .ok (e, b)) (hlf : 0 < cfg.lowerFactor)
    (hl : Floors cfg.base.nVars cfg.lowerFactor learn) (hsize : 2 ≤ cfg.base.sizeGen)
    {j : ℕ} (hj : j < cfg.base.nVars) {l u : ℝ} (hlu : l ≤ u)
    (D : Measure (Draws ℝ)) [IsProbabilityMeasure D] (T : ℕ) :
    eachGen D {ω | ∃ res s, minimize env e f ftol b { ρ with sample := ω } = .ok (res, s) ∧
        T ≤ res.history.length ∧ ¬ EvaluatedOutside j l u s} ≤
      (1 - D (bothSides j ((u - l) / (2 * cfg.lowerFactor)))) ^ (T - 1) := by
  set A := bothSides j ((u - l) / (2 * cfg.lowerFactor)) with hA
  have hAm : MeasurableSet A := bothSides_measurable _ _
  have hsub : {ω | ∃ res s, minimize env e f ftol b { ρ with sample := ω } = .ok (res, s) ∧
      T ≤ res.history.length ∧ ¬ EvaluatedOutside j l u s} ⊆
      Set.pi (Finset.Ico 1 T : Set ℕ) (fun _ => Aᶜ) := by
    rintro ω ⟨res, s, hrun, hT, hne⟩ t ht hA'
    simp only [Finset.coe_Ico, Set.mem_Ico] at ht
    exact hne (leave_box hv h hlf hl hrun hj hlu ht.1 (i := 0) (i' := 1) (by omega) (by push_cast; omega)
      (by push_cast; omega) hA'.1 hA'.2)
  refine (measure_mono hsub).trans ?_
  rw [eachGen, Measure.infinitePi_pi _ (fun _ _ => hAm.compl), Finset.prod_const, Nat.card_Ico,
    prob_compl_eq_one_sub hAm]

/-- Normal draws fall on both sides of every interval with positive probability. -/
theorem normal_bothSides (j : ℕ) (c : ℝ) :
    normalDraws (bothSides j c) = gaussianReal 0 1 (Set.Ioi c) * gaussianReal 0 1 (Set.Iio (-c)) ∧
    normalDraws (bothSides j c) ≠ 0 := by
  have hpos : ∀ s : Set ℝ, IsOpen s → s.Nonempty → gaussianReal 0 1 s ≠ 0 := by
    intro s ho hn h0
    exact ho.measure_ne_zero volume hn (gaussianReal_absolutelyContinuous' 0 one_ne_zero h0)
  have heq : normalDraws (bothSides j c) = gaussianReal 0 1 (Set.Ioi c) * gaussianReal 0 1 (Set.Iio (-c)) := by
    have hset : bothSides j c = Set.pi (Finset.range 2 : Set ℕ)
        (fun i => {x : ℕ → ℝ | x j ∈ if i = 0 then Set.Ioi c else Set.Iio (-c)}) := by
      ext z
      simp only [bothSides, Set.mem_ofPred_eq, Set.mem_pi, Finset.coe_range, Set.mem_Iio]
      constructor
      · rintro ⟨h0, h1⟩ i hi
        have : i = 0 ∨ i = 1 := by omega
        rcases this with rfl | rfl
        · simpa using h0
        · simpa using h1
      · intro h
        exact ⟨by simpa using h 0 (by norm_num), by simpa using h 1 (by norm_num)⟩
    have hm : ∀ i : ℕ, MeasurableSet {x : ℕ → ℝ | x j ∈ if i = 0 then Set.Ioi c else Set.Iio (-c)} := by
      intro i
      refine (measurable_pi_apply j) ?_
      split
      · exact measurableSet_Ioi
      · exact measurableSet_Iio
    have hone : ∀ s : Set ℝ, MeasurableSet s →
        Measure.infinitePi (fun _ : ℕ => gaussianReal 0 1) {x : ℕ → ℝ | x j ∈ s} = gaussianReal 0 1 s := by
      intro s hs
      have : {x : ℕ → ℝ | x j ∈ s} = Set.pi (({j} : Finset ℕ) : Set ℕ) (fun _ => s) := by
        ext x; simp
      rw [this, Measure.infinitePi_pi _ (fun _ _ => hs)]
      simp
    rw [hset, normalDraws, Measure.infinitePi_pi _ (fun i _ => hm i), Finset.prod_range_succ,
      Finset.prod_range_one]
    simp only [if_true, one_ne_zero, if_false]
    rw [hone _ measurableSet_Ioi, hone _ measurableSet_Iio]
  refine ⟨heq, ?_⟩
  rw [heq]
  exact mul_ne_zero (hpos _ isOpen_Ioi ⟨c + 1, by simp⟩) (hpos _ isOpen_Iio ⟨-c - 1, by simp⟩)

/-- From the rate to the limit. -/
theorem leave_limit {D : Measure (Draws ℝ)} {A : Set (Draws ℝ)} (hA : D A ≠ 0) {ε : ENNReal} (hε : 0 < ε) :
    ∃ M : ℕ, ∀ m : ℕ, M ≤ m → (1 - D A) ^ (m - 1) ≤ ε := by
  have hlt : 1 - D A < 1 := ENNReal.sub_lt_self ENNReal.one_ne_top one_ne_zero hA
  obtain ⟨N, hN⟩ := ((tendsto_order.1 (ENNReal.tendsto_pow_atTop_nhds_zero_of_lt_one hlt)).2 ε
    hε).exists_forall_of_atTop
  exact ⟨N + 1, fun m hm => (hN _ (by omega)).le⟩

/-- **C76** `UMDAc` with `lower_factor > 0`, at least two individuals per generation and generations with
independent draws: the probability that a run evaluates at least `T` generations without an individual whose
variable `j` is outside of `[l, u]` decreases exponentially with `T`.  The interval is arbitrary, in particular
it can contain the bounds given to the constructor. -/
theorem C76_UMDAc_rate (hv : env.Valid) (h : UMDAc fl Real.sqrt cfg = .ok (e, b))
    (hlf : 0 < cfg.lowerFactor) (hsize : 2 ≤ cfg.base.sizeGen)
    {j : ℕ} (hj : j < cfg.base.nVars) {l u : ℝ} (hlu : l ≤ u)
    (D : Measure (Draws ℝ)) [IsProbabilityMeasure D] (T : ℕ) :
    eachGen D {ω | ∃ res s, minimize env e f ftol b { ρ with sample := ω } = .ok (res, s) ∧
        T ≤ res.history.length ∧ ¬ EvaluatedOutside j l u s} ≤
      (1 - D (bothSides j ((u - l) / (2 * cfg.lowerFactor)))) ^ (T - 1) :=
  leave_probability hv h hlf (floors_learn real_isSqrt (by omega) _) hsize hj hlu D T

/-- **C76** the same for `PBIL`. -/
theorem C76_PBIL_rate (hv : env.Valid) (h : PBIL fl Real.sqrt cfg = .ok (e, b))
    (hlf : 0 < cfg.lowerFactor) (hsize : 2 ≤ cfg.base.sizeGen)
    {j : ℕ} (hj : j < cfg.base.nVars) {l u : ℝ} (hlu : l ≤ u)
    (D : Measure (Draws ℝ)) [IsProbabilityMeasure D] (T : ℕ) :
    eachGen D {ω | ∃ res s, minimize env e f ftol b { ρ with sample := ω } = .ok (res, s) ∧
        T ≤ res.history.length ∧ ¬ EvaluatedOutside j l u s} ≤
      (1 - D (bothSides j ((u - l) / (2 * cfg.lowerFactor)))) ^ (T - 1) :=
  leave_probability hv h hlf (floors_learnAdapt real_isSqrt (by omega) _ _) hsize hj hlu D T

instance : IsProbabilityMeasure normalDraws := by unfold normalDraws; infer_instance

/-- Every run without early stopping evaluates `max_iter` generations. -/
theorem history_max {R σ Ω : Type} {env : Env ℝ} {e : Eda R σ Ω} {f : ℕ → R → ℝ} {pm : σ} {ρ : Rand Ω}
    {res : EdaResult R ℝ} {s : St R ℝ σ} {m : ℕ} (hd : e.deadIter = 0) (hm : e.maxIter = m)
    (h : minimize env e f ftol pm ρ = .ok (res, s)) : m ≤ res.history.length := by
  have := (C06_dead_iter h).2.2 (by rw [hd])
  rw [hm] at this
  have h3 : (m : ℤ) ≤ (res.history.length : ℤ) := by rw [this]; exact le_max_right _ _
  exact_mod_cast h3

/-- **C76** `UMDAc` with independent standard normal draws: for every bounded interval, the probability that
a run without early stopping (`dead_iter = 0`) returns having evaluated an individual outside of it tends to 1
as `max_iter` grows, whatever the cost function, the bounds and the first generation. -/
theorem C76_UMDAc (hv : env.Valid) {m : ℕ}
    (hval : ContValid env.cpu cfg.base cfg m (selLen fl cfg.base.sizeGen cfg.base.alpha))
    (hlf : 0 < cfg.lowerFactor) (hsize : 2 ≤ cfg.base.sizeGen) {j : ℕ} (hj : j < cfg.base.nVars) {l u : ℝ}
    (hlu : l ≤ u) {ε : ENNReal} (hε : 0 < ε) :
    ∃ M : ℕ, ∀ k : ℕ, M ≤ k → ∃ e b,
      UMDAc fl Real.sqrt { cfg with base := { cfg.base with maxIter := k, deadIter := 0 } } = .ok (e, b) ∧
      eachGen normalDraws {ω | ¬ ∃ res s, minimize env e f ftol b { ρ with sample := ω } = .ok (res, s) ∧
        EvaluatedOutside j l u s} ≤ ε := by
  obtain ⟨M, hM⟩ := leave_limit (normal_bothSides j ((u - l) / (2 * cfg.lowerFactor))).2 hε
  refine ⟨M, fun k hk => ?_⟩
  set cfg' : UMDAcCfg ℝ := { cfg with base := { cfg.base with maxIter := k, deadIter := 0 } } with hc'
  have hval' : ContValid env.cpu cfg'.base cfg' m (selLen fl cfg'.base.sizeGen cfg'.base.alpha) :=
    { dead := by simp [hc'], size := hval.size, pos := hval.pos, trunc := hval.trunc, cpu := hval.cpu
      noise := hval.noise, init := hval.init, build := hval.build
      data := fun d hd => let h := hval.data d hd; ⟨⟨h.1.cols, h.1.rect, h.1.dt, h.1.fl⟩, h.2⟩ }
  have hrun : ∀ ω : ℕ → Draws ℝ, ∃ e b, UMDAc fl Real.sqrt cfg' = .ok (e, b) ∧ ∃ res s,
      minimize env e f ftol b { ρ with sample := ω } = .ok (res, s) := fun ω =>
    C53_UMDAc_never_raises hv real_isSqrt hval' (fun k r => by simp [IsNum, PyCost.eq])
  obtain ⟨e, b, heb, _⟩ := hrun (fun _ _ _ => 0)
  refine ⟨e, b, heb, le_trans (measure_mono ?_)
    ((C76_UMDAc_rate (f := f) (ftol := ftol) (ρ := ρ) hv heb hlf hsize hj hlu normalDraws k).trans (hM k hk))⟩
  intro ω hω
  obtain ⟨e', b', heb', res, s, hr⟩ := hrun ω
  rw [heb] at heb'
  obtain ⟨rfl, rfl⟩ := Prod.mk.inj (Except.ok.inj heb')
  have hmk := mkEda_ok (mkCont_ok heb).1
  exact ⟨res, s, hr, history_max hmk.deadIter hmk.maxIter hr, fun ho => hω ⟨res, s, hr, ho⟩⟩

/-- **C76** the same for `PBIL`. -/
theorem C76_PBIL (hv : env.Valid) {m : ℕ} (hm : 2 ≤ m) (hfl : 2 ≤ selLen fl cfg.base.sizeGen 1)
    (hval : ContValid env.cpu { cfg.base with alpha := 1 } cfg m (selLen fl cfg.base.sizeGen 1))
    (hlf : 0 < cfg.lowerFactor) {j : ℕ} (hj : j < cfg.base.nVars) {l u : ℝ}
    (hlu : l ≤ u) {ε : ENNReal} (hε : 0 < ε) :
    ∃ M : ℕ, ∀ k : ℕ, M ≤ k → ∃ e b,
      PBIL fl Real.sqrt { cfg with base := { cfg.base with maxIter := k, deadIter := 0 } } = .ok (e, b) ∧
      eachGen normalDraws {ω | ¬ ∃ res s, minimize env e f ftol b { ρ with sample := ω } = .ok (res, s) ∧
        EvaluatedOutside j l u s} ≤ ε := by
  obtain ⟨M, hM⟩ := leave_limit (normal_bothSides j ((u - l) / (2 * cfg.lowerFactor))).2 hε
  refine ⟨M, fun k hk => ?_⟩
  have hsize : 2 ≤ cfg.base.sizeGen := le_trans (by exact_mod_cast hm) hval.size
  set cfg' : UMDAcCfg ℝ := { cfg with base := { cfg.base with maxIter := k, deadIter := 0 } } with hc'
  have hval' : ContValid env.cpu { cfg'.base with alpha := 1 } cfg' m (selLen fl cfg'.base.sizeGen 1) :=
    { dead := by simp [hc'], size := hval.size, pos := hval.pos, trunc := hval.trunc, cpu := hval.cpu
      noise := hval.noise, init := hval.init, build := hval.build
      data := fun d hd => let h := hval.data d hd; ⟨⟨h.1.cols, h.1.rect, h.1.dt, h.1.fl⟩, h.2⟩ }
  have hrun : ∀ ω : ℕ → Draws ℝ, ∃ e b, PBIL fl Real.sqrt cfg' = .ok (e, b) ∧ ∃ res s,
      minimize env e f ftol b { ρ with sample := ω } = .ok (res, s) := fun ω =>
    C53_PBIL_never_raises hv real_isSqrt hm hfl hval' (fun k r => by simp [IsNum, PyCost.eq])
  obtain ⟨e, b, heb, _⟩ := hrun (fun _ _ _ => 0)
  refine ⟨e, b, heb, le_trans (measure_mono ?_)
    ((C76_PBIL_rate (f := f) (ftol := ftol) (ρ := ρ) hv heb hlf hsize hj hlu normalDraws k).trans (hM k hk))⟩
  intro ω hω
  obtain ⟨e', b', heb', res, s, hr⟩ := hrun ω
  rw [heb] at heb'
  obtain ⟨rfl, rfl⟩ := Prod.mk.inj (Except.ok.inj heb')
  have hmk := mkEda_ok (mkCont_ok heb).1
  exact ⟨res, s, hr, history_max hmk.deadIter hmk.maxIter hr, fun ho => hω ⟨res, s, hr, ho⟩⟩

end prob

/-- The settings of C48's example (bounds 0 and 1): runs with many iterations leave `[-1000, 1000]`. -/
example : ∃ M : ℕ, ∀ k : ℕ, M ≤ k → ∃ e b,
    UMDAc id Real.sqrt { Ex.cont with base := { Ex.cont.base with maxIter := k, deadIter := 0 } } = .ok (e, b) ∧
    eachGen normalDraws {ω | ¬ ∃ res s, minimize realEnv e (fun _ r => r.sum) 0 b
      ⟨fun _ _ => 0, fun _ _ => 0, fun _ _ _ => 0, ω⟩ = .ok (res, s) ∧ EvaluatedOutside 0 (-1000) 1000 s} ≤ 1 / 100 :=
  C76_UMDAc (m := 4) (ρ := ⟨fun _ _ => 0, fun _ _ => 0, fun _ _ _ => 0, fun _ _ _ => 0⟩) realEnv_valid
    ⟨Ex.cont_valid.dead, Ex.cont_valid.size, Ex.cont_valid.pos, Ex.cont_valid.trunc, by simp [Ex.cont],
      Ex.cont_valid.noise, Ex.cont_valid.init, Ex.cont_valid.build, Ex.cont_valid.data⟩
    (by norm_num [Ex.cont]) (by norm_num [Ex.cont]) (by norm_num [Ex.cont]) (by norm_num) (by simp)

end Verif
