/-
C96: UMDAc and PBIL with an elite as large as the selection come arbitrarily close to the global minimum of a
continuous cost function with probability tending to 1.
-/
import Verif.Lemmas.ConvLearn

set_option linter.unusedSectionVars false

namespace Verif

open PyCost Spec MeasureTheory ProbabilityTheory

namespace Spec

/-- Individuals whose cost is at most some level are bounded (the cost grows beyond all limits with the norm). -/
def Coercive (n : ℕ) (g : List ℝ → ℝ) : Prop :=
  ∀ c : ℝ, ∃ M : ℝ, ∀ x : Fin n → ℝ, g (List.ofFn x) ≤ c → ∀ j, |x j| ≤ M

end Spec

section general
variable {env : Env ℝ} {g : List ℝ → ℝ} {ftol : ℝ} {ρ : Rand (Draws ℝ)} {n : ℕ}

/-- What is used of the learning: it depends on the selected rows, measurably, with bounded results. -/
structure Learner (n : ℕ) (lb : ℝ)
    (learn : UniGauss ℝ → Gen (List ℝ) → Gen (List ℝ) → Draws ℝ → Except PyErr (UniGauss ℝ)) (nz : Noise ℝ)
    (mu sd : List (Fin n → ℝ) → Fin n → ℝ) : Prop where
  learns : LearnsBy n lb (addNoise nz) learn mu sd
  muMeas : ∀ j, Measurable fun P => mu P j
  sdMeas : ∀ j, Measurable fun P => sd P j
  bound : ∀ (k : ℕ) (M : ℝ), 0 ≤ M → ∃ M' S, ∀ P : List (Fin n → ℝ), P.length = k → (∀ r ∈ P, ∀ j, |r j| ≤ M) →
    ∀ j, |mu P j| ≤ M' ∧ lb ≤ sd P j ∧ sd P j ≤ S

theorem learner_umdac (hn : 0 < n) (lb : ℝ) (nz : Noise ℝ) :
    Learner n lb (fun b g _ (_ : Draws ℝ) => b.learn Real.sqrt g) nz
      (learnMean (noiseTable nz)) (learnDev lb (noiseTable nz)) where
  learns := learnsBy_umdac hn lb nz
  muMeas := meas_learnMean _
  sdMeas := meas_learnDev lb _
  bound := by
    intro k M h0
    obtain ⟨B, hB, hb⟩ := noise_bounded (noiseTable nz) k n
    refine ⟨M + B, max (2 * (M + B)) lb, fun P hk hP j => ?_⟩
    have := learn_abs (by linarith) (addRows_abs hP (by rw [hk]; exact hb)) lb 0 j
    exact ⟨this.1, le_max_right _ _, this.2.1⟩

theorem learner_pbil (hn : 0 < n) (lb alpha : ℝ) (nz : Noise ℝ) :
    Learner n lb (fun b g _ (_ : Draws ℝ) => b.learnAdapt Real.sqrt alpha g) nz
      (learnShift alpha (noiseTable nz)) (learnDev lb (noiseTable nz)) where
  learns := learnsBy_pbil hn lb alpha nz
  muMeas := meas_learnShift alpha _
  sdMeas := meas_learnDev lb _
  bound := by
    intro k M h0
    obtain ⟨B, hB, hb⟩ := noise_bounded (noiseTable nz) k n
    refine ⟨|1 - alpha| * (M + B) + |alpha| * (3 * (M + B)), max (2 * (M + B)) lb, fun P hk hP j => ?_⟩
    have := learn_abs (by linarith) (addRows_abs hP (by rw [hk]; exact hb)) lb alpha j
    exact ⟨this.2.2, le_max_right _ _, this.2.1⟩

theorem list_bound {α : Type} (l : List α) (h : α → ℝ) : ∃ c, ∀ x ∈ l, h x ≤ c := by
  induction l with
  | nil => exact ⟨0, by simp⟩
  | cons a l ih =>
    obtain ⟨c, hc⟩ := ih
    refine ⟨max (h a) c, fun x hx => ?_⟩
    rcases List.mem_cons.1 hx with rfl | hx
    · exact le_max_left _ _
    · exact (hc x hx).trans (le_max_right _ _)

/-- The probability of missing a box around any point decreases geometrically. -/
theorem reach_rate (hv : env.Valid) (hcs : ComparisonSort env.argsort) {lb : ℝ} (hlb : 0 < lb)
    {learn : UniGauss ℝ → Gen (List ℝ) → Gen (List ℝ) → Draws ℝ → Except PyErr (UniGauss ℝ)} {nz : Noise ℝ}
    {mu sd : List (Fin n → ℝ) → Fin n → ℝ} (hl : Learner n lb learn nz mu sd) {kT kE size : ℤ} (hpos : 1 ≤ size)
    (hT : 0 ≤ kT) (hTE : kT ≤ kE) {gen0 : Gen (List ℝ)} (hrect : Rect n gen0.rows) (hlen : kT ≤ gen0.rows.length)
    (hm : Measurable fun x : Fin n → ℝ => g (List.ofFn x)) (hco : Coercive n g) (target : Fin n → ℝ) {δ : ℝ}
    (hδ : 0 < δ) :
    ∃ q : ENNReal, q ≠ 0 ∧ ∀ (e : Eda (List ℝ) (UniGauss ℝ) (Draws ℝ)) (b : UniGauss ℝ), e.truncLen = kT →
      e.eliteLen = kE → e.initGen ρ.init = .ok gen0 → e.mkNoise ρ.noise = .ok (addNoise nz) → e.updatePm = learn →
      e.sample = (fun b ω => b.sample size ω) → b.n = n → b.lb = lb → ∀ T : ℕ,
      eachGen normalDraws {ω | ∃ res s, minimize env e (fun _ => g) ftol b { ρ with sample := ω } = .ok (res, s) ∧
        T ≤ res.history.length ∧ ¬ EvaluatedNear target δ s} ≤ (1 - q) ^ (T - 1) := by
  let G0 : List (Fin n → ℝ) := gen0.rows.map fun r j => r.getD j 0
  have hG0 : gen0.rows = G0.map List.ofFn := by
    rw [List.map_map]
    refine ((List.map_congr_left fun r hr => ?_).trans (List.map_id _)).symm
    simp only [Function.comp, id_eq]
    apply List.ext_getElem?
    intro j
    have := hrect r hr
    rw [List.getElem?_ofFn]
    by_cases hj : j < n
    · simp [hj, List.getD_eq_getElem?_getD, this]
    · simp [hj, this]
  let p : PureRun n := ⟨env.argsort, fun x => g (List.ofFn x), kT, kE, size.toNat, mu, sd, G0, G0.take 1⟩
  obtain ⟨c, hc⟩ := list_bound G0 p.cost
  obtain ⟨M, hM⟩ := hco c
  obtain ⟨M', S, hb⟩ := hl.bound kT.toNat (max M 0) (le_max_right _ _)
  obtain ⟨Mt, hMt⟩ := list_bound (List.finRange n) fun j => |target j|
  have hlow := p.sel_low hv.argsort hT hTE (c := c) (by
    refine le_trans ?_ ((List.sublist_append_left p.g0 p.l0).countP_le)
    rw [List.countP_eq_length.2 (by simpa using hc)]
    simp only [p, G0, List.length_map]
    omega)
  have hbd : ∀ ω k j, |p.mu (p.sel ω k) j| ≤ M' ∧ lb ≤ p.sd (p.sel ω k) j ∧ p.sd (p.sel ω k) j ≤ S := by
    intro ω k
    exact hb _ (hlow ω k).2 fun r hr j => (hM r ((hlow ω k).1 r hr) j).trans (le_max_left _ _)
  rcases Nat.eq_zero_or_pos n with rfl | hn
  · refine ⟨1, one_ne_zero, fun e b h1 h2 h3 h4 h5 h6 h7 h8 T => ?_⟩
    have hp : RunsAs p env e g size ρ.init := ⟨rfl, fun _ => rfl, h1.symm, h2.symm, by omega, rfl,
      fun gen hg => by rw [h3] at hg; rw [← Except.ok.inj hg]; exact hG0, rfl⟩
    have := near_probability (ftol := ftol) (target := target) (M := 0) (l := 1) (S := 1) (δ := δ) hv hp hpos h4
      (by rw [h5]; exact hl.learns) h6 h7 h8 hcs hm hl.muMeas hl.sdMeas one_pos hδ (fun j => j.elim0)
      (fun _ _ j => j.elim0) (fun _ _ j => j.elim0) T
    simpa using this
  · have hS : 0 < S := hlb.trans_le ((hbd (fun _ _ _ => 0) 0 ⟨0, hn⟩).2.1.trans (hbd (fun _ _ _ => 0) 0 ⟨0, hn⟩).2.2)
    refine ⟨gaussLow (2 * max M' Mt / lb) (δ / S) ^ n, pow_ne_zero _ (gaussLow_ne (by positivity)),
      fun e b h1 h2 h3 h4 h5 h6 h7 h8 T => ?_⟩
    have hp : RunsAs p env e g size ρ.init := ⟨rfl, fun _ => rfl, h1.symm, h2.symm, by omega, rfl,
      fun gen hg => by rw [h3] at hg; rw [← Except.ok.inj hg]; exact hG0, rfl⟩
    exact near_probability (ftol := ftol) hv hp hpos h4 (by rw [h5]; exact hl.learns) h6 h7 h8 hcs hm hl.muMeas
      hl.sdMeas hlb hδ (fun j => (hMt j (List.mem_finRange j)).trans (le_max_right _ _))
      (fun ω k j => (hbd ω k j).1.trans (le_max_left _ _)) (fun ω k j => (hbd ω k j).2) T

/-- The first pass alone: the chance that its first individual falls into the box, for any cost function. -/
theorem near_chance (hv : env.Valid) {e : Eda (List ℝ) (UniGauss ℝ) (Draws ℝ)} {b : UniGauss ℝ} {p : PureRun n}
    {lb : ℝ} {size : ℤ} (hp : RunsAs p env e g size ρ.init) (hpos : 1 ≤ size)
    {noise : Gen (List ℝ) → Except PyErr (Gen (List ℝ))} (hnz : e.mkNoise ρ.noise = .ok noise)
    (hl : LearnsBy n lb noise e.updatePm p.mu p.sd) (hsam : e.sample = fun b ω => b.sample size ω) (hbn : b.n = n)
    (hbl : b.lb = lb) {target : Fin n → ℝ} {M l S δ : ℝ} (hl0 : 0 < l) (hδ : 0 < δ) (ht : ∀ j, |target j| ≤ M)
    (hM : ∀ ω j, |p.mu (p.sel ω 0) j| ≤ M) (hS : ∀ ω j, l ≤ p.sd (p.sel ω 0) j ∧ p.sd (p.sel ω 0) j ≤ S) :
    gaussLow (2 * M / l) (δ / S) ^ n ≤
      eachGen normalDraws {ω | ∀ res s, minimize env e (fun _ => g) ftol b { ρ with sample := ω } = .ok (res, s) →
        2 ≤ res.history.length → EvaluatedNear target δ s} := by
  let ω0 : ℕ → Draws ℝ := fun _ _ _ => 0
  let A : Set (Draws ℝ) := {z | ∀ j : Fin n, |p.mu (p.sel ω0 0) j + p.sd (p.sel ω0 0) j * z 0 j - target j| < δ}
  have hA : MeasurableSet A := by
    have : A = ⋂ j : Fin n, {z : Draws ℝ | |p.mu (p.sel ω0 0) j + p.sd (p.sel ω0 0) j * z 0 j - target j| < δ} := by
      ext z; simp [A]
    rw [this]
    refine MeasurableSet.iInter fun j => measurableSet_lt (continuous_abs.measurable.comp ?_) measurable_const
    refine (measurable_const.add (measurable_const.mul ?_)).sub measurable_const
    exact (measurable_pi_apply (j : ℕ)).comp (measurable_pi_apply 0)
  refine (normal_box hl0 hδ (hM ω0) (hS ω0) ht).trans ?_
  have hmap : eachGen normalDraws ((fun ω => ω 1) ⁻¹' A) = normalDraws A := by
    rw [← Measure.map_apply (measurable_pi_apply 1) hA]
    exact congrArg (fun m => m A) (Measure.infinitePi_map_eval (fun _ : ℕ => normalDraws) 1)
  refine hmap.symm.le.trans (measure_mono ?_)
  intro ω hω res s hr h2
  exact near_of_hit (ρ := { ρ with sample := ω }) hv hp hpos hnz hl hsam hbn hbl hr le_rfl (by omega) hω

/-- Both algorithms: the chance is positive. -/
theorem reach_chance (hv : env.Valid) {lb : ℝ} (hlb : 0 < lb)
    {learn : UniGauss ℝ → Gen (List ℝ) → Gen (List ℝ) → Draws ℝ → Except PyErr (UniGauss ℝ)} {nz : Noise ℝ}
    {mu sd : List (Fin n → ℝ) → Fin n → ℝ} (hl : Learner n lb learn nz mu sd) {kT kE size : ℤ} (hpos : 1 ≤ size)
    {gen0 : Gen (List ℝ)} (hrect : Rect n gen0.rows) (hn : 0 < n) (target : Fin n → ℝ) {δ : ℝ} (hδ : 0 < δ) :
    ∃ q : ENNReal, q ≠ 0 ∧ ∀ (e : Eda (List ℝ) (UniGauss ℝ) (Draws ℝ)) (b : UniGauss ℝ), e.truncLen = kT →
      e.eliteLen = kE → e.initGen ρ.init = .ok gen0 → e.mkNoise ρ.noise = .ok (addNoise nz) → e.updatePm = learn →
      e.sample = (fun b ω => b.sample size ω) → b.n = n → b.lb = lb →
      q ≤ eachGen normalDraws {ω | ∀ res s, minimize env e (fun _ => g) ftol b { ρ with sample := ω } = .ok (res, s) →
        2 ≤ res.history.length → EvaluatedNear target δ s} := by
  let G0 : List (Fin n → ℝ) := gen0.rows.map fun r j => r.getD j 0
  have hG0 : gen0.rows = G0.map List.ofFn := by
    rw [List.map_map]
    refine ((List.map_congr_left fun r hr => ?_).trans (List.map_id _)).symm
    simp only [Function.comp, id_eq]
    apply List.ext_getElem?
    intro j
    have := hrect r hr
    rw [List.getElem?_ofFn]
    by_cases hj : j < n
    · simp [hj, List.getD_eq_getElem?_getD, this]
    · simp [hj, this]
  let p : PureRun n := ⟨env.argsort, fun x => g (List.ofFn x), kT, kE, size.toNat, mu, sd, G0, G0.take 1⟩
  let P0 : List (Fin n → ℝ) := p.sel (fun _ _ _ => 0) 0
  obtain ⟨c, hc⟩ := list_bound P0 fun r => ((List.finRange n).map fun j => |r j|).sum
  have hP0 : ∀ r ∈ P0, ∀ j, |r j| ≤ max c 0 := by
    intro r hr j
    refine le_trans ?_ ((hc r hr).trans (le_max_left _ _))
    refine List.single_le_sum ?_ _ (List.mem_map.2 ⟨j, List.mem_finRange j, rfl⟩)
    intro x hx
    obtain ⟨i, _, rfl⟩ := List.mem_map.1 hx
    exact abs_nonneg _
  obtain ⟨M', S, hb⟩ := hl.bound P0.length (max c 0) (le_max_right _ _)
  have hbd := hb P0 rfl hP0
  obtain ⟨Mt, hMt⟩ := list_bound (List.finRange n) fun j => |target j|
  have hS : 0 < S := hlb.trans_le ((hbd ⟨0, hn⟩).2.1.trans (hbd ⟨0, hn⟩).2.2)
  refine ⟨gaussLow (2 * max M' Mt / lb) (δ / S) ^ n, pow_ne_zero _ (gaussLow_ne (by positivity)),
    fun e b h1 h2 h3 h4 h5 h6 h7 h8 => ?_⟩
  have hp : RunsAs p env e g size ρ.init := ⟨rfl, fun _ => rfl, h1.symm, h2.symm, by omega, rfl,
    fun gen hg => by rw [h3] at hg; rw [← Except.ok.inj hg]; exact hG0, rfl⟩
  exact near_chance (ftol := ftol) hv hp hpos h4 (by rw [h5]; exact hl.learns) h6 h7 h8 hlb hδ
    (fun j => (hMt j (List.mem_finRange j)).trans (le_max_right _ _))
    (fun ω j => (hbd j).1.trans (le_max_left _ _)) (fun ω j => (hbd j).2)

/-- With `max_iter ≥ 2` at least two generations are evaluated, whatever `dead_iter`. -/
theorem history_two {R σ Ω : Type} {e : Eda R σ Ω} {f : ℕ → R → ℝ} {pm : σ} {ρ : Rand Ω} {res : EdaResult R ℝ}
    {s : St R ℝ σ} (hm : 2 ≤ e.maxIter) (h : minimize env e f ftol pm ρ = .ok (res, s)) : 2 ≤ res.history.length := by
  by_contra hc
  obtain ⟨_, j, m, hm', h1, hj, _⟩ := (C06_dead_iter h).1 (by
    refine lt_of_lt_of_le ?_ (le_max_right _ _)
    omega)
  omega

/-- A cost function that is continuous and coercive has a minimiser. -/
theorem exists_minimiser (hcont : Continuous fun x : Fin n → ℝ => g (List.ofFn x)) (hco : Coercive n g) :
    ∃ target : Fin n → ℝ, ∀ x : Fin n → ℝ, g (List.ofFn target) ≤ g (List.ofFn x) := by
  refine hcont.exists_forall_le ?_
  rw [← Metric.cobounded_eq_cocompact, Filter.tendsto_atTop]
  intro c
  obtain ⟨M, hM⟩ := hco c
  have hb : Bornology.IsBounded {x : Fin n → ℝ | g (List.ofFn x) ≤ c} := by
    refine (Metric.isBounded_closedBall (x := (0 : Fin n → ℝ)) (r := max M 0)).subset fun x hx => ?_
    rw [mem_closedBall_zero_iff, pi_norm_le_iff_of_nonneg (le_max_right _ _)]
    exact fun j => (hM x hx j).trans (le_max_left _ _)
  rw [← Bornology.isCobounded_compl_iff] at hb
  filter_upwards [hb] with x hx
  simp only [Set.mem_compl_iff, Set.mem_ofPred_eq, not_le] at hx
  exact hx.le

/-- Near a minimiser of a continuous cost function the cost is near the minimum. -/
theorem near_cost (hcont : Continuous fun x : Fin n → ℝ => g (List.ofFn x)) (target : Fin n → ℝ) {ε : ℝ}
    (hε : 0 < ε) : ∃ δ > 0, ∀ x : Fin n → ℝ, (∀ j, |x j - target j| < δ) →
      g (List.ofFn x) < g (List.ofFn target) + ε := by
  obtain ⟨δ, hδ, h⟩ := Metric.continuous_iff.1 hcont target ε hε
  refine ⟨δ, hδ, fun x hx => ?_⟩
  have := h x ((dist_pi_lt_iff hδ).2 fun j => by rw [Real.dist_eq]; exact hx j)
  rw [Real.dist_eq] at this
  linarith [(abs_lt.1 this).2]

/-- An evaluated individual is at least as costly as the smallest cost of its generation. -/
theorem history_of_near {σ : Type} {e : Eda (List ℝ) σ (Draws ℝ)} {b : σ} (hv : env.Valid)
    {res : EdaResult (List ℝ) ℝ} {s : St (List ℝ) ℝ σ}
    (hrun : minimize env e (fun _ => g) ftol b ρ = .ok (res, s)) {p : List ℝ × ℝ} (hp : p ∈ s.log.flatten) :
    ∃ c ∈ res.history, c ≤ g p.1 := by
  obtain ⟨hlen, hf, hmin⟩ := C04_history_is_min hv hrun
  obtain ⟨i, hi⟩ := List.mem_iff_getElem?.1 hp
  have hcg : p.2 = g p.1 := hf i p.1 p.2 hi
  obtain ⟨batch, hb, hcb⟩ := List.mem_flatten.1 hp
  obtain ⟨t, ht⟩ := List.mem_iff_getElem?.1 hb
  have htl := (List.getElem?_eq_some_iff.1 ht).1
  have hx := List.getElem?_eq_getElem (l := res.history) (i := t) (by omega)
  have h1 := (hmin t _ batch hx ht).2 p.2 (List.mem_map.2 ⟨_, hcb, rfl⟩)
  simp only [PyCost.lt, decide_eq_false_iff_not, not_lt] at h1
  exact ⟨_, List.getElem_mem (by omega : t < res.history.length), by rw [← hcg]; exact h1⟩

/-- With tolerance 0 the best cost is at most every cost of the history. -/
theorem best_of_history {σ : Type} {e : Eda (List ℝ) σ (Draws ℝ)} {b : σ} (hv : env.Valid)
    {res : EdaResult (List ℝ) ℝ} {s : St (List ℝ) ℝ σ}
    (hrun : minimize env e (fun _ => g) ftol b ρ = .ok (res, s)) (h0 : ftol = 0) :
    ∀ c ∈ res.history, res.bestCost ≤ c := by
  intro c hc
  have := (C03_zero_tolerance hv (by intro b; simp [h0]) hrun).2 c hc
  simpa [PyCost.lt] using this

/-- From the rate to the limit. -/
theorem rate_limit {q : ENNReal} (hq : q ≠ 0) {η : ENNReal} (hη : 0 < η) :
    ∃ M : ℕ, ∀ m : ℕ, M ≤ m → (1 - q) ^ (m - 1) ≤ η := by
  have hlt : 1 - q < 1 := ENNReal.sub_lt_self ENNReal.one_ne_top one_ne_zero hq
  obtain ⟨N, hN⟩ := ((tendsto_order.1 (ENNReal.tendsto_pow_atTop_nhds_zero_of_lt_one hlt)).2 η
    hη).exists_forall_of_atTop
  exact ⟨N + 1, fun m hm => (hN _ (by omega)).le⟩

end general

section algorithms
variable {fl : ℝ → ℝ} {cfg : UMDAcCfg ℝ} {env : Env ℝ} {g : List ℝ → ℝ} {ftol : ℝ} {ρ : Rand (Draws ℝ)}

/-- The white noise of a valid configuration. -/
theorem noise_ok {base : BaseCfg ℝ (List ℝ)} {cpu m : ℕ} {t : ℤ} (hval : ContValid cpu base cfg m t) (ht : 0 ≤ t) (ω : Draws ℝ) :
    ∃ nz, mkWhiteNoise base.noiseAttr t base.nVars ω = .ok nz := by
  unfold mkWhiteNoise
  rcases hval.noise with h | ⟨h, _⟩
  · rw [if_pos h]; exact ⟨_, rfl⟩
  · rw [if_neg h.ne', if_neg (by linarith), if_neg (by linarith), if_neg (by omega)]; exact ⟨_, rfl⟩

/-- The first generation of a valid configuration. -/
theorem first_gen {base : BaseCfg ℝ (List ℝ)} {cpu m : ℕ} {t : ℤ} (hval : ContValid cpu base cfg m t)
    (hnv : base.nVars = cfg.base.nVars) (ω : Draws ℝ) :
    ∃ gen0 : Gen (List ℝ), Rect cfg.base.nVars gen0.rows ∧ m ≤ gen0.rows.length ∧
      (base.initData = none → contInitSample fl cfg ω = .ok gen0) ∧ ∀ d, base.initData = some d → gen0 = d := by
  cases hd : base.initData with
  | none =>
    have hs := hval.size
    obtain ⟨gen0, h0⟩ := (initUsable_sample (fl := fl) (hval.init hd) (by omega)).2 ω
    obtain ⟨_, _, h3, h4⟩ := contInit_shape h0
    exact ⟨gen0, h3, by omega, fun _ => h0, by simp⟩
  | some d =>
    obtain ⟨h1, h2⟩ := hval.data d hd
    exact ⟨d, by rw [← hnv]; exact h1.rect, h2, by simp, fun d' h => (Option.some.inj h)⟩

/-- Runs of algorithms with the settings of `cfg` (whatever `max_iter`) miss a box with geometrically decreasing
probability. -/
theorem cont_rate (hv : env.Valid) (hcs : ComparisonSort env.argsort) {base : BaseCfg ℝ (List ℝ)} {m : ℕ}
    (hnv : base.nVars = cfg.base.nVars)
    {learn : UniGauss ℝ → Gen (List ℝ) → Gen (List ℝ) → Draws ℝ → Except PyErr (UniGauss ℝ)}
    (hval : ContValid env.cpu base cfg m (selLen fl base.sizeGen base.alpha))
    (hlf : 0 < cfg.lowerFactor) (htr : selLen fl base.sizeGen base.alpha ≤ m)
    (hel : selLen fl base.sizeGen base.alpha ≤ selLen fl base.sizeGen base.eliteFactor)
    (hl : ∀ nz, ∃ mu sd, Learner cfg.base.nVars cfg.lowerFactor learn nz mu sd)
    (hm : Measurable fun x : Fin cfg.base.nVars → ℝ => g (List.ofFn x)) (hco : Coercive cfg.base.nVars g)
    (target : Fin cfg.base.nVars → ℝ) {δ : ℝ} (hδ : 0 < δ) :
    ∃ q : ENNReal, q ≠ 0 ∧ ∀ (k : ℕ) (cfg' : UMDAcCfg ℝ) (e : Eda (List ℝ) (UniGauss ℝ) (Draws ℝ)) (b : UniGauss ℝ),
      cfg' = { cfg with base := { cfg.base with maxIter := k, deadIter := 0 } } →
      mkCont fl { base with maxIter := k, deadIter := 0 } cfg' learn = .ok (e, b) → ∀ T : ℕ,
      eachGen normalDraws {ω | ∃ res s, minimize env e (fun _ => g) ftol b { ρ with sample := ω } = .ok (res, s) ∧
        T ≤ res.history.length ∧ ¬ EvaluatedNear target δ s} ≤ (1 - q) ^ (T - 1) := by
  have hT := hval.trunc
  obtain ⟨nz, hnz⟩ := noise_ok hval (by omega) ρ.noise
  obtain ⟨gen0, h1, h2, h3, h4⟩ := first_gen (fl := fl) hval hnv ρ.init
  obtain ⟨mu, sd, hlr⟩ := hl nz
  have hs := hval.size
  have hp := hval.pos
  obtain ⟨q, hq, hrate⟩ := reach_rate (ftol := ftol) (ρ := ρ) (size := cfg.base.sizeGen) hv hcs hlf hlr (by omega)
    (by omega) hel h1 (by omega) hm hco target hδ
  refine ⟨q, hq, ?_⟩
  rintro k cfg' e b rfl hmk T
  obtain ⟨he, _, hb⟩ := mkCont_ok hmk
  have hm' := mkEda_ok he
  refine hrate e b hm'.truncLen hm'.eliteLen ?_ ?_ hm'.updatePm hm'.sample (by rw [hb]; rfl) (by rw [hb]; rfl) T
  · cases hd : base.initData with
    | none => rw [hm'.initNone hd]; exact h3 hd
    | some d => rw [(hm'.initSome d hd).2, h4 d hd]
  · rw [hm'.mkNoise]
    have : mkWhiteNoise (BaseCfg.noiseAttr { base with maxIter := (k : ℤ), deadIter := 0 })
        (selLen fl base.sizeGen base.alpha) base.nVars ρ.noise = .ok nz := hnz
    simp only [this]

/-- A configuration reaches the box with positive probability in the first pass. -/
theorem cont_chance (hv : env.Valid) {base : BaseCfg ℝ (List ℝ)} {m : ℕ} (hnv : base.nVars = cfg.base.nVars)
    {learn : UniGauss ℝ → Gen (List ℝ) → Gen (List ℝ) → Draws ℝ → Except PyErr (UniGauss ℝ)}
    (hval : ContValid env.cpu base cfg m (selLen fl base.sizeGen base.alpha))
    (hlf : 0 < cfg.lowerFactor) (hn : 0 < cfg.base.nVars)
    (hl : ∀ nz, ∃ mu sd, Learner cfg.base.nVars cfg.lowerFactor learn nz mu sd)
    (target : Fin cfg.base.nVars → ℝ) {δ : ℝ} (hδ : 0 < δ) {e : Eda (List ℝ) (UniGauss ℝ) (Draws ℝ)} {b : UniGauss ℝ}
    (hmk : mkCont fl base cfg learn = .ok (e, b)) :
    ∃ q : ENNReal, q ≠ 0 ∧
      q ≤ eachGen normalDraws {ω | ∀ res s, minimize env e (fun _ => g) ftol b { ρ with sample := ω } = .ok (res, s) →
        2 ≤ res.history.length → EvaluatedNear target δ s} := by
  have hT := hval.trunc
  obtain ⟨nz, hnz⟩ := noise_ok hval (by omega) ρ.noise
  obtain ⟨gen0, h1, h2, h3, h4⟩ := first_gen (fl := fl) hval hnv ρ.init
  obtain ⟨mu, sd, hlr⟩ := hl nz
  have hs := hval.size
  have hp := hval.pos
  obtain ⟨he, _, hb⟩ := mkCont_ok hmk
  have hm' := mkEda_ok he
  obtain ⟨q, hq, h⟩ := reach_chance (ftol := ftol) (ρ := ρ) (g := g) (size := cfg.base.sizeGen) hv hlf hlr (by omega)
    h1 hn target hδ
  refine ⟨q, hq, h e b hm'.truncLen hm'.eliteLen ?_ ?_ hm'.updatePm hm'.sample (by rw [hb]; rfl) (by rw [hb]; rfl)⟩
  · cases hd : base.initData with
    | none => rw [hm'.initNone hd]; exact h3 hd
    | some d => rw [(hm'.initSome d hd).2, h4 d hd]
  · rw [hm'.mkNoise]
    simp only [hnz]

/-- Valid configurations stay valid with other limits. -/
theorem contValid_limits {cpu : ℕ} {base : BaseCfg ℝ (List ℝ)} {m : ℕ} {t : ℤ} (hval : ContValid cpu base cfg m t)
    (k : ℕ) : ContValid cpu { base with maxIter := k, deadIter := 0 }
      { cfg with base := { cfg.base with maxIter := k, deadIter := 0 } } m t :=
  { dead := by simp, size := hval.size, pos := hval.pos, trunc := hval.trunc, cpu := hval.cpu
    noise := hval.noise, init := hval.init, build := hval.build
    data := fun d hd => let h := hval.data d hd; ⟨⟨h.1.cols, h.1.rect, h.1.dt, h.1.fl⟩, h.2⟩ }

/-- **C96** `UMDAc` explores everything: with an elite at least as large as the selection, `lower_factor > 0`, a
cost function whose level sets are bounded, independent standard normal draws and no early stopping, every point
is approached to within every distance `δ > 0` by an evaluated individual with probability tending to 1 as
`max_iter` grows. -/
theorem C96_UMDAc_reaches (hv : env.Valid) (hcs : ComparisonSort env.argsort) {m : ℕ}
    (hval : ContValid env.cpu cfg.base cfg m (selLen fl cfg.base.sizeGen cfg.base.alpha))
    (hlf : 0 < cfg.lowerFactor) (hn : 0 < cfg.base.nVars) (htr : selLen fl cfg.base.sizeGen cfg.base.alpha ≤ m)
    (hel : selLen fl cfg.base.sizeGen cfg.base.alpha ≤ selLen fl cfg.base.sizeGen cfg.base.eliteFactor)
    (hm : Measurable fun x : Fin cfg.base.nVars → ℝ => g (List.ofFn x)) (hco : Coercive cfg.base.nVars g)
    (target : Fin cfg.base.nVars → ℝ) {δ : ℝ} (hδ : 0 < δ) :
    ∃ q : ENNReal, q ≠ 0 ∧ ∀ k : ℕ, ∃ e b,
      UMDAc fl Real.sqrt { cfg with base := { cfg.base with maxIter := k, deadIter := 0 } } = .ok (e, b) ∧
      eachGen normalDraws {ω | ¬ ∃ res s, minimize env e (fun _ => g) ftol b { ρ with sample := ω } = .ok (res, s) ∧
        EvaluatedNear target δ s} ≤ (1 - q) ^ (k - 1) := by
  obtain ⟨q, hq, h⟩ := cont_rate (ftol := ftol) (ρ := ρ) (learn := fun b g _ _ => b.learn Real.sqrt g) hv hcs rfl hval hlf
    htr hel (fun nz => ⟨_, _, learner_umdac hn _ nz⟩) hm hco target hδ
  refine ⟨q, hq, fun k => ?_⟩
  have hrun : ∀ ω : ℕ → Draws ℝ, ∃ e b,
      UMDAc fl Real.sqrt { cfg with base := { cfg.base with maxIter := k, deadIter := 0 } } = .ok (e, b) ∧ ∃ res s,
      minimize env e (fun _ => g) ftol b { ρ with sample := ω } = .ok (res, s) := fun ω =>
    C53_UMDAc_never_raises hv real_isSqrt (contValid_limits hval k) (fun k r => by simp [IsNum, PyCost.eq])
  obtain ⟨e, b, heb, _⟩ := hrun (fun _ _ _ => 0)
  refine ⟨e, b, heb, le_trans (measure_mono ?_) (h k _ e b rfl heb k)⟩
  intro ω hω
  obtain ⟨e', b', heb', res, s, hr⟩ := hrun ω
  rw [heb] at heb'
  obtain ⟨rfl, rfl⟩ := Prod.mk.inj (Except.ok.inj heb')
  have hmk := mkEda_ok (mkCont_ok heb).1
  exact ⟨res, s, hr, history_max hmk.deadIter hmk.maxIter hr, fun ho => hω ⟨res, s, hr, ho⟩⟩

/-- **C96** the same for `PBIL`, which selects `int(size_gen)` individuals; the elite has to be that large. -/
theorem C96_PBIL_reaches (hv : env.Valid) (hcs : ComparisonSort env.argsort) {m : ℕ} (h2m : 2 ≤ m)
    (hfl : 2 ≤ selLen fl cfg.base.sizeGen 1)
    (hval : ContValid env.cpu { cfg.base with alpha := 1 } cfg m (selLen fl cfg.base.sizeGen 1))
    (hlf : 0 < cfg.lowerFactor) (hn : 0 < cfg.base.nVars) (htr : selLen fl cfg.base.sizeGen 1 ≤ m)
    (hel : selLen fl cfg.base.sizeGen 1 ≤ selLen fl cfg.base.sizeGen cfg.base.eliteFactor)
    (hm : Measurable fun x : Fin cfg.base.nVars → ℝ => g (List.ofFn x)) (hco : Coercive cfg.base.nVars g)
    (target : Fin cfg.base.nVars → ℝ) {δ : ℝ} (hδ : 0 < δ) :
    ∃ q : ENNReal, q ≠ 0 ∧ ∀ k : ℕ, ∃ e b,
      PBIL fl Real.sqrt { cfg with base := { cfg.base with maxIter := k, deadIter := 0 } } = .ok (e, b) ∧
      eachGen normalDraws {ω | ¬ ∃ res s, minimize env e (fun _ => g) ftol b { ρ with sample := ω } = .ok (res, s) ∧
        EvaluatedNear target δ s} ≤ (1 - q) ^ (k - 1) := by
  obtain ⟨q, hq, h⟩ := cont_rate (ftol := ftol) (ρ := ρ) (base := { cfg.base with alpha := 1 })
    (learn := fun b g _ _ => b.learnAdapt Real.sqrt cfg.base.alpha g) hv hcs rfl hval hlf
    htr hel (fun nz => ⟨_, _, learner_pbil hn _ _ nz⟩) hm hco target hδ
  refine ⟨q, hq, fun k => ?_⟩
  have hrun : ∀ ω : ℕ → Draws ℝ, ∃ e b,
      PBIL fl Real.sqrt { cfg with base := { cfg.base with maxIter := k, deadIter := 0 } } = .ok (e, b) ∧ ∃ res s,
      minimize env e (fun _ => g) ftol b { ρ with sample := ω } = .ok (res, s) := fun ω =>
    C53_PBIL_never_raises hv real_isSqrt h2m hfl (contValid_limits hval k) (fun k r => by simp [IsNum, PyCost.eq])
  obtain ⟨e, b, heb, _⟩ := hrun (fun _ _ _ => 0)
  refine ⟨e, b, heb, le_trans (measure_mono ?_) (h k _ e b rfl heb k)⟩
  intro ω hω
  obtain ⟨e', b', heb', res, s, hr⟩ := hrun ω
  rw [heb] at heb'
  obtain ⟨rfl, rfl⟩ := Prod.mk.inj (Except.ok.inj heb')
  have hmk := mkEda_ok (mkCont_ok heb).1
  exact ⟨res, s, hr, history_max hmk.deadIter hmk.maxIter hr, fun ho => hω ⟨res, s, hr, ho⟩⟩

namespace Spec

/-- The run came within `ε` of the global minimum of the cost function: an entry of `history`, and `best_cost` if
the tolerance is 0. -/
def WithinOfMinimum {R : Type} (n : ℕ) (g : List ℝ → ℝ) (ftol ε : ℝ) (res : EdaResult R ℝ) : Prop :=
  (∃ c ∈ res.history, ∀ x : Fin n → ℝ, c ≤ g (List.ofFn x) + ε) ∧
  (ftol = 0 → ∀ x : Fin n → ℝ, res.bestCost ≤ g (List.ofFn x) + ε)

end Spec

theorem within_of_near {σ : Type} {e : Eda (List ℝ) σ (Draws ℝ)} {b : σ} (hv : env.Valid) {n : ℕ}
    {target : Fin n → ℝ} (htar : ∀ x : Fin n → ℝ, g (List.ofFn target) ≤ g (List.ofFn x)) {ε δ : ℝ}
    (hδ : ∀ x : Fin n → ℝ, (∀ j, |x j - target j| < δ) → g (List.ofFn x) < g (List.ofFn target) + ε)
    {res : EdaResult (List ℝ) ℝ} {s : St (List ℝ) ℝ σ}
    (hrun : minimize env e (fun _ => g) ftol b ρ = .ok (res, s)) (hnear : EvaluatedNear target δ s) :
    WithinOfMinimum n g ftol ε res := by
  obtain ⟨p, hp, x, hx, hd⟩ := hnear
  obtain ⟨c, hc, hle⟩ := history_of_near hv hrun hp
  have hcx : ∀ y : Fin n → ℝ, c ≤ g (List.ofFn y) + ε := by
    intro y
    have h1 := hδ x hd
    rw [hx] at hle
    linarith [htar y]
  exact ⟨⟨c, hc, hcx⟩, fun h0 y => (best_of_history hv hrun h0 c hc).trans (hcx y)⟩

/-- **C96** `UMDAc` converges to the global minimum: with an elite at least as large as the selection,
`lower_factor > 0`, a continuous cost function with bounded level sets, independent standard normal draws and no
early stopping, the probability that the run does not come within `ε` of the global minimum decreases
geometrically with `max_iter`. -/
theorem C96_UMDAc_rate (hv : env.Valid) (hcs : ComparisonSort env.argsort) {m : ℕ}
    (hval : ContValid env.cpu cfg.base cfg m (selLen fl cfg.base.sizeGen cfg.base.alpha))
    (hlf : 0 < cfg.lowerFactor) (hn : 0 < cfg.base.nVars) (htr : selLen fl cfg.base.sizeGen cfg.base.alpha ≤ m)
    (hel : selLen fl cfg.base.sizeGen cfg.base.alpha ≤ selLen fl cfg.base.sizeGen cfg.base.eliteFactor)
    (hcont : Continuous fun x : Fin cfg.base.nVars → ℝ => g (List.ofFn x)) (hco : Coercive cfg.base.nVars g)
    {ε : ℝ} (hε : 0 < ε) :
    ∃ q : ENNReal, q ≠ 0 ∧ ∀ k : ℕ, ∃ e b,
      UMDAc fl Real.sqrt { cfg with base := { cfg.base with maxIter := k, deadIter := 0 } } = .ok (e, b) ∧
      eachGen normalDraws {ω | ¬ ∃ res s, minimize env e (fun _ => g) ftol b { ρ with sample := ω } = .ok (res, s) ∧
        WithinOfMinimum cfg.base.nVars g ftol ε res} ≤ (1 - q) ^ (k - 1) := by
  obtain ⟨target, htar⟩ := exists_minimiser hcont hco
  obtain ⟨δ, hδ, hnear⟩ := near_cost hcont target hε
  obtain ⟨q, hq, h⟩ := C96_UMDAc_reaches (ftol := ftol) (ρ := ρ) hv hcs hval hlf hn htr hel hcont.measurable hco target hδ
  refine ⟨q, hq, fun k => ?_⟩
  obtain ⟨e, b, heb, hk⟩ := h k
  refine ⟨e, b, heb, (measure_mono ?_).trans hk⟩
  rintro ω hω ⟨res, s, hr, hs⟩
  exact hω ⟨res, s, hr, within_of_near hv htar hnear hr hs⟩

/-- **C96** the same for `PBIL`. -/
theorem C96_PBIL_rate (hv : env.Valid) (hcs : ComparisonSort env.argsort) {m : ℕ} (h2m : 2 ≤ m)
    (hfl : 2 ≤ selLen fl cfg.base.sizeGen 1)
    (hval : ContValid env.cpu { cfg.base with alpha := 1 } cfg m (selLen fl cfg.base.sizeGen 1))
    (hlf : 0 < cfg.lowerFactor) (hn : 0 < cfg.base.nVars) (htr : selLen fl cfg.base.sizeGen 1 ≤ m)
    (hel : selLen fl cfg.base.sizeGen 1 ≤ selLen fl cfg.base.sizeGen cfg.base.eliteFactor)
    (hcont : Continuous fun x : Fin cfg.base.nVars → ℝ => g (List.ofFn x)) (hco : Coercive cfg.base.nVars g)
    {ε : ℝ} (hε : 0 < ε) :
    ∃ q : ENNReal, q ≠ 0 ∧ ∀ k : ℕ, ∃ e b,
      PBIL fl Real.sqrt { cfg with base := { cfg.base with maxIter := k, deadIter := 0 } } = .ok (e, b) ∧
      eachGen normalDraws {ω | ¬ ∃ res s, minimize env e (fun _ => g) ftol b { ρ with sample := ω } = .ok (res, s) ∧
        WithinOfMinimum cfg.base.nVars g ftol ε res} ≤ (1 - q) ^ (k - 1) := by
  obtain ⟨target, htar⟩ := exists_minimiser hcont hco
  obtain ⟨δ, hδ, hnear⟩ := near_cost hcont target hε
  obtain ⟨q, hq, h⟩ := C96_PBIL_reaches (ftol := ftol) (ρ := ρ) hv hcs h2m hfl hval hlf hn htr hel hcont.measurable hco
    target hδ
  refine ⟨q, hq, fun k => ?_⟩
  obtain ⟨e, b, heb, hk⟩ := h k
  refine ⟨e, b, heb, (measure_mono ?_).trans hk⟩
  rintro ω hω ⟨res, s, hr, hs⟩
  exact hω ⟨res, s, hr, within_of_near hv htar hnear hr hs⟩

/-- **C96** convergence in probability of `UMDAc`. -/
theorem C96_UMDAc (hv : env.Valid) (hcs : ComparisonSort env.argsort) {m : ℕ}
    (hval : ContValid env.cpu cfg.base cfg m (selLen fl cfg.base.sizeGen cfg.base.alpha))
    (hlf : 0 < cfg.lowerFactor) (hn : 0 < cfg.base.nVars) (htr : selLen fl cfg.base.sizeGen cfg.base.alpha ≤ m)
    (hel : selLen fl cfg.base.sizeGen cfg.base.alpha ≤ selLen fl cfg.base.sizeGen cfg.base.eliteFactor)
    (hcont : Continuous fun x : Fin cfg.base.nVars → ℝ => g (List.ofFn x)) (hco : Coercive cfg.base.nVars g)
    {ε : ℝ} (hε : 0 < ε) {η : ENNReal} (hη : 0 < η) :
    ∃ M : ℕ, ∀ k : ℕ, M ≤ k → ∃ e b,
      UMDAc fl Real.sqrt { cfg with base := { cfg.base with maxIter := k, deadIter := 0 } } = .ok (e, b) ∧
      eachGen normalDraws {ω | ¬ ∃ res s, minimize env e (fun _ => g) ftol b { ρ with sample := ω } = .ok (res, s) ∧
        WithinOfMinimum cfg.base.nVars g ftol ε res} ≤ η := by
  obtain ⟨q, hq, h⟩ := C96_UMDAc_rate (ftol := ftol) (ρ := ρ) hv hcs hval hlf hn htr hel hcont hco hε
  obtain ⟨M, hM⟩ := rate_limit hq hη
  refine ⟨M, fun k hk => ?_⟩
  obtain ⟨e, b, heb, hb⟩ := h k
  exact ⟨e, b, heb, hb.trans (hM k hk)⟩

/-- **C96** convergence in probability of `PBIL`. -/
theorem C96_PBIL (hv : env.Valid) (hcs : ComparisonSort env.argsort) {m : ℕ} (h2m : 2 ≤ m)
    (hfl : 2 ≤ selLen fl cfg.base.sizeGen 1)
    (hval : ContValid env.cpu { cfg.base with alpha := 1 } cfg m (selLen fl cfg.base.sizeGen 1))
    (hlf : 0 < cfg.lowerFactor) (hn : 0 < cfg.base.nVars) (htr : selLen fl cfg.base.sizeGen 1 ≤ m)
    (hel : selLen fl cfg.base.sizeGen 1 ≤ selLen fl cfg.base.sizeGen cfg.base.eliteFactor)
    (hcont : Continuous fun x : Fin cfg.base.nVars → ℝ => g (List.ofFn x)) (hco : Coercive cfg.base.nVars g)
    {ε : ℝ} (hε : 0 < ε) {η : ENNReal} (hη : 0 < η) :
    ∃ M : ℕ, ∀ k : ℕ, M ≤ k → ∃ e b,
      PBIL fl Real.sqrt { cfg with base := { cfg.base with maxIter := k, deadIter := 0 } } = .ok (e, b) ∧
      eachGen normalDraws {ω | ¬ ∃ res s, minimize env e (fun _ => g) ftol b { ρ with sample := ω } = .ok (res, s) ∧
        WithinOfMinimum cfg.base.nVars g ftol ε res} ≤ η := by
  obtain ⟨q, hq, h⟩ := C96_PBIL_rate (ftol := ftol) (ρ := ρ) hv hcs h2m hfl hval hlf hn htr hel hcont hco hε
  obtain ⟨M, hM⟩ := rate_limit hq hη
  refine ⟨M, fun k hk => ?_⟩
  obtain ⟨e, b, heb, hb⟩ := h k
  exact ⟨e, b, heb, hb.trans (hM k hk)⟩

/-- **C96** nothing is out of reach: for every configuration of `UMDAc` with `lower_factor > 0` and `max_iter ≥ 2`,
every cost function, every elite and every bounds of the first generation, a run comes within every distance
`δ > 0` of every point with positive probability. -/
theorem C96_UMDAc_possible (hv : env.Valid) {m : ℕ}
    (hval : ContValid env.cpu cfg.base cfg m (selLen fl cfg.base.sizeGen cfg.base.alpha))
    (hlf : 0 < cfg.lowerFactor) (hn : 0 < cfg.base.nVars) (hit : 2 ≤ cfg.base.maxIter)
    (target : Fin cfg.base.nVars → ℝ) {δ : ℝ} (hδ : 0 < δ) :
    ∃ e b, UMDAc fl Real.sqrt cfg = .ok (e, b) ∧
      0 < eachGen normalDraws {ω | ∃ res s, minimize env e (fun _ => g) ftol b { ρ with sample := ω } = .ok (res, s) ∧
        EvaluatedNear target δ s} := by
  have hrun : ∀ ω : ℕ → Draws ℝ, ∃ e b, UMDAc fl Real.sqrt cfg = .ok (e, b) ∧ ∃ res s,
      minimize env e (fun _ => g) ftol b { ρ with sample := ω } = .ok (res, s) := fun ω =>
    C53_UMDAc_never_raises hv real_isSqrt hval (fun k r => by simp [IsNum, PyCost.eq])
  obtain ⟨e, b, heb, _⟩ := hrun (fun _ _ _ => 0)
  refine ⟨e, b, heb, ?_⟩
  obtain ⟨q, hq, h⟩ := cont_chance (ftol := ftol) (ρ := ρ) (g := g) hv rfl hval hlf hn
    (fun nz => ⟨_, _, learner_umdac hn _ nz⟩) target hδ heb
  refine lt_of_lt_of_le (pos_iff_ne_zero.2 hq) (h.trans (measure_mono ?_))
  intro ω hω
  obtain ⟨e', b', heb', res, s, hr⟩ := hrun ω
  rw [heb] at heb'
  obtain ⟨rfl, rfl⟩ := Prod.mk.inj (Except.ok.inj heb')
  exact ⟨res, s, hr, hω res s hr (history_two (by rw [(mkEda_ok (mkCont_ok heb).1).maxIter]; exact hit) hr)⟩

/-- **C96** the same for `PBIL`. -/
theorem C96_PBIL_possible (hv : env.Valid) {m : ℕ} (h2m : 2 ≤ m) (hfl : 2 ≤ selLen fl cfg.base.sizeGen 1)
    (hval : ContValid env.cpu { cfg.base with alpha := 1 } cfg m (selLen fl cfg.base.sizeGen 1))
    (hlf : 0 < cfg.lowerFactor) (hn : 0 < cfg.base.nVars) (hit : 2 ≤ cfg.base.maxIter)
    (target : Fin cfg.base.nVars → ℝ) {δ : ℝ} (hδ : 0 < δ) :
    ∃ e b, PBIL fl Real.sqrt cfg = .ok (e, b) ∧
      0 < eachGen normalDraws {ω | ∃ res s, minimize env e (fun _ => g) ftol b { ρ with sample := ω } = .ok (res, s) ∧
        EvaluatedNear target δ s} := by
  have hrun : ∀ ω : ℕ → Draws ℝ, ∃ e b, PBIL fl Real.sqrt cfg = .ok (e, b) ∧ ∃ res s,
      minimize env e (fun _ => g) ftol b { ρ with sample := ω } = .ok (res, s) := fun ω =>
    C53_PBIL_never_raises hv real_isSqrt h2m hfl hval (fun k r => by simp [IsNum, PyCost.eq])
  obtain ⟨e, b, heb, _⟩ := hrun (fun _ _ _ => 0)
  refine ⟨e, b, heb, ?_⟩
  obtain ⟨q, hq, h⟩ := cont_chance (ftol := ftol) (ρ := ρ) (g := g) (base := { cfg.base with alpha := 1 }) hv rfl hval hlf hn
    (fun nz => ⟨_, _, learner_pbil hn _ _ nz⟩) target hδ heb
  refine lt_of_lt_of_le (pos_iff_ne_zero.2 hq) (h.trans (measure_mono ?_))
  intro ω hω
  obtain ⟨e', b', heb', res, s, hr⟩ := hrun ω
  rw [heb] at heb'
  obtain ⟨rfl, rfl⟩ := Prod.mk.inj (Except.ok.inj heb')
  exact ⟨res, s, hr, hω res s hr (history_two (by rw [(mkEda_ok (mkCont_ok heb).1).maxIter]; exact hit) hr)⟩

/-- The stable sort of the model only compares. -/
theorem stableArgsort_comparison : ComparisonSort stableArgsort := by
  intro cs cs' hlen h
  have : posLe cs = posLe cs' := by
    funext i j
    unfold posLe
    have key : ∀ i : ℕ, cs[i]? = none ↔ cs'[i]? = none := by
      intro i; rw [List.getElem?_eq_none_iff, List.getElem?_eq_none_iff, hlen]
    cases hi : cs[i]? with
    | none => rw [(key i).1 hi]; cases hj : cs[j]? with
      | none => rw [(key j).1 hj]
      | some b =>
        cases hj' : cs'[j]? with
        | none => rw [(key j).2 hj'] at hj; cases hj
        | some b' => rfl
    | some a =>
      cases hi' : cs'[i]? with
      | none => rw [(key i).2 hi'] at hi; cases hi
      | some a' =>
        cases hj : cs[j]? with
        | none => rw [(key j).1 hj]
        | some b =>
          cases hj' : cs'[j]? with
          | none => rw [(key j).2 hj'] at hj; cases hj
          | some b' =>
            have := h j i b a b' a' hj hi hj' hi'
            simp [LeNanLast, PyCost.lt, IsNum, PyCost.eq, this]
  unfold stableArgsort
  rw [hlen]
  congr 1

end algorithms

namespace Ex

/-- The settings of C48's example with an elite as large as the selection. -/
noncomputable def contElite : UMDAcCfg ℝ := { cont with base := { cont.base with eliteFactor := 1 } }

/-- The sum of the squared distances to 3. -/
def bowl (r : List ℝ) : ℝ := (r.map fun x => (x - 3) ^ 2).sum

theorem bowl_eq (x : Fin 1 → ℝ) : bowl (List.ofFn x) = (x 0 - 3) ^ 2 := by simp [bowl]

theorem bowl_continuous : Continuous fun x : Fin 1 → ℝ => bowl (List.ofFn x) := by
  simp only [bowl_eq]; fun_prop

theorem bowl_coercive : Coercive 1 bowl := by
  intro c
  refine ⟨max c 0 + 4, fun x hx j => ?_⟩
  rw [bowl_eq] at hx
  obtain rfl : j = 0 := Subsingleton.elim _ _
  have h1 : (x 0 - 3) ^ 2 ≤ max c 0 := hx.trans (le_max_left _ _)
  rw [abs_le]
  constructor <;> nlinarith [le_max_right c 0, sq_nonneg (x 0 - 3 - 1), sq_nonneg (x 0 - 3 + 1)]

end Ex

/-- Both algorithms, four individuals per generation, first generation drawn in `[0, 1]`: the minimum of
`(x - 3)²` is approached. -/
example : (∃ M : ℕ, ∀ k : ℕ, M ≤ k → ∃ e b,
      UMDAc id Real.sqrt { Ex.contElite with base := { Ex.contElite.base with maxIter := k, deadIter := 0 } } = .ok (e, b) ∧
      eachGen normalDraws {ω | ¬ ∃ res s, minimize realEnv e (fun _ => Ex.bowl) 0 b
        ⟨fun _ _ => 0, fun _ _ => 0, fun _ _ _ => 0, ω⟩ = .ok (res, s) ∧
        WithinOfMinimum 1 Ex.bowl 0 (1 / 1000) res} ≤ 1 / 100) ∧
    ∃ M : ℕ, ∀ k : ℕ, M ≤ k → ∃ e b,
      PBIL id Real.sqrt { Ex.contElite with base := { Ex.contElite.base with maxIter := k, deadIter := 0 } } = .ok (e, b) ∧
      eachGen normalDraws {ω | ¬ ∃ res s, minimize realEnv e (fun _ => Ex.bowl) 0 b
        ⟨fun _ _ => 0, fun _ _ => 0, fun _ _ _ => 0, ω⟩ = .ok (res, s) ∧
        WithinOfMinimum 1 Ex.bowl 0 (1 / 1000) res} ≤ 1 / 100 := by
  have hs1 : selLen (id : ℝ → ℝ) Ex.contElite.base.sizeGen 1 = 4 := Ex.selLen_one
  have hs2 : selLen (id : ℝ → ℝ) Ex.contElite.base.sizeGen Ex.contElite.base.alpha = 2 := Ex.selLen_half
  have hs3 : selLen (id : ℝ → ℝ) Ex.contElite.base.sizeGen Ex.contElite.base.eliteFactor = 4 := Ex.selLen_one
  constructor
  · refine C96_UMDAc (cfg := Ex.contElite) (m := 4) (ρ := ⟨fun _ _ => 0, fun _ _ => 0, fun _ _ _ => 0, fun _ _ _ => 0⟩)
      realEnv_valid stableArgsort_comparison
      ⟨Ex.cont_valid.dead, Ex.cont_valid.size, Ex.cont_valid.pos, Ex.cont_valid.trunc, by simp [Ex.contElite, Ex.cont],
        Ex.cont_valid.noise, Ex.cont_valid.init, Ex.cont_valid.build, fun d hd => by simp [Ex.contElite, Ex.cont] at hd⟩
      (by norm_num [Ex.contElite, Ex.cont]) (by norm_num [Ex.contElite, Ex.cont]) (by rw [hs2]; norm_num)
      (by rw [hs2, hs3]; norm_num) Ex.bowl_continuous Ex.bowl_coercive (by norm_num) (by simp)
  · refine C96_PBIL (cfg := Ex.contElite) (m := 4) (ρ := ⟨fun _ _ => 0, fun _ _ => 0, fun _ _ _ => 0, fun _ _ _ => 0⟩)
      realEnv_valid stableArgsort_comparison (by norm_num) (by rw [hs1]; norm_num)
      ⟨Ex.cont_valid_pbil.dead, Ex.cont_valid_pbil.size, Ex.cont_valid_pbil.pos, Ex.cont_valid_pbil.trunc,
        by simp [Ex.contElite, Ex.cont],
        Ex.cont_valid_pbil.noise, Ex.cont_valid_pbil.init, Ex.cont_valid_pbil.build,
        fun d hd => by simp [Ex.contElite, Ex.cont] at hd⟩
      (by norm_num [Ex.contElite, Ex.cont]) (by norm_num [Ex.contElite, Ex.cont]) (by rw [hs1]; norm_num)
      (by rw [hs1, hs3]) Ex.bowl_continuous Ex.bowl_coercive (by norm_num) (by simp)

/-- Default-like elite, first generation drawn in `[0, 1]`, two generations: individuals near 1000 can occur. -/
example : ∃ e b, UMDAc id Real.sqrt { Ex.cont with base := { Ex.cont.base with maxIter := 2 } } = .ok (e, b) ∧
    0 < eachGen normalDraws {ω | ∃ res s, minimize realEnv e (fun _ => Ex.bowl) 0 b
      ⟨fun _ _ => 0, fun _ _ => 0, fun _ _ _ => 0, ω⟩ = .ok (res, s) ∧
        EvaluatedNear (fun _ : Fin 1 => (1000 : ℝ)) (1 / 10) s} :=
  C96_UMDAc_possible (cfg := { Ex.cont with base := { Ex.cont.base with maxIter := 2 } }) (m := 4)
    (ρ := ⟨fun _ _ => 0, fun _ _ => 0, fun _ _ _ => 0, fun _ _ _ => 0⟩) realEnv_valid
    ⟨by norm_num [Ex.cont], Ex.cont_valid.size, Ex.cont_valid.pos, Ex.cont_valid.trunc, by simp [Ex.cont],
      Ex.cont_valid.noise, Ex.cont_valid.init, Ex.cont_valid.build, fun d hd => by simp [Ex.cont] at hd⟩
    (by norm_num [Ex.cont]) (by norm_num [Ex.cont]) (by norm_num) _ (by norm_num)

end Verif
