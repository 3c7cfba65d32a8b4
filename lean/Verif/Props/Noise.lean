/-
C80: the white noise matrix is drawn once per run, so it moves the centre of the model by the same amount in
every iteration; it does not average out over the iterations of a run.
-/
import Verif.Props.Setup
import Verif.Props.MultiGauss
import Verif.Props.Leave
import Verif.Props.Law
import Mathlib.Probability.Distributions.Gaussian.HasGaussianLaw.Independence

set_option linter.unusedSectionVars false

namespace Verif

open PyCost Spec MeasureTheory ProbabilityTheory

namespace Spec

/-- Mean of column `j` of the first `k` rows of a noise matrix. -/
def noiseMean {K : Type} [Field K] (k : ℕ) (ν : Draws K) (j : ℕ) : K := mean ((List.range k).map (fun i => ν i j))

end Spec

section shift
variable {K : Type} [Field K] [LinearOrder K] [IsStrictOrderedRing K]

/-- A column of the noisy training set: noise added entry by entry. -/
theorem col_noisy {rows noisy : List (List K)} {n : ℕ} {ν : Draws K} (hr : Rect n rows)
    (hrows : ∀ (i : ℕ) (r : List K), rows[i]? = some r → r.length = n →
      noisy[i]? = some (r.mapIdx (fun j x => x + ν i j))) {j : ℕ} (hj : j < n) {i : ℕ} (hi : i < rows.length) :
    (col noisy j).getD i 0 = (col rows j).getD i 0 + ν i j := by
  have h1 := hrows i _ (List.getElem?_eq_getElem hi) (hr _ (List.getElem_mem hi))
  have hl : j < (rows[i]).length := by rw [hr _ (List.getElem_mem hi)]; exact hj
  unfold col
  simp only [List.getD_eq_getElem?_getD, List.getElem?_map, h1, List.getElem?_eq_getElem hi, Option.map_some,
    Option.getD_some, List.getElem?_mapIdx, List.getElem?_eq_getElem hl]

theorem mean_range {l : List K} {m : ℕ} (h : l.length = m) : mean l = (∑ i ∈ Finset.range m, l.getD i 0) / m := by
  unfold mean
  rw [h, ← h]
  congr 1
  rw [← Fin.sum_univ_eq_sum_range (fun i => l.getD i 0) l.length, ← List.sum_ofFn]
  congr 1
  apply List.ext_getElem
  · simp
  · intro i h1 h2
    simp [List.getD_eq_getElem?_getD]

theorem mean_col_noisy {rows noisy : List (List K)} {n : ℕ} {ν : Draws K} (hlen : noisy.length = rows.length)
    (hr : Rect n rows)
    (hrows : ∀ (i : ℕ) (r : List K), rows[i]? = some r → r.length = n →
      noisy[i]? = some (r.mapIdx (fun j x => x + ν i j))) {j : ℕ} (hj : j < n) :
    mean (col noisy j) = mean (col rows j) + noiseMean rows.length ν j := by
  have l1 : (col noisy j).length = rows.length := by simp [col, hlen]
  have l2 : (col rows j).length = rows.length := by simp [col]
  unfold noiseMean
  rw [mean_range l1, mean_range l2, mean_range (m := rows.length) (by simp), ← add_div, ← Finset.sum_add_distrib]
  congr 1
  refine Finset.sum_congr rfl fun i hi => ?_
  rw [col_noisy hr hrows hj (Finset.mem_range.1 hi)]
  simp [List.getD_eq_getElem?_getD, List.getElem?_range (Finset.mem_range.1 hi)]

variable [FloorRing K] {C : Type} [PyCost C] {env : Env C} {f : ℕ → List K → C} {ftol : C} {ρ : Rand (Draws K)}
variable {fl sq : K → K}

/-- The training set of an iteration: as many rows as selected individuals (`truncation_length`), and every
column the column of the selected individuals plus the noise of the run. -/
theorem noisy_training {σ : Type} {cfg : BaseCfg K (List K)} {init : Draws K → Except PyErr (Gen (List K))}
    {learn : σ → Gen (List K) → Gen (List K) → Draws K → Except PyErr σ}
    {sample : σ → Draws K → Except PyErr (Gen (List K))} {e : Eda (List K) σ (Draws K)} {pm : σ} {I : σ → Prop}
    (hv : env.Valid) {w : K} (hw : cfg.wNoise = some w) (hw0 : 0 < w)
    (htr : 0 ≤ selLen fl cfg.sizeGen cfg.alpha) (he : mkEda fl cfg init learn sample = .ok e)
    (hdata : ∀ d, cfg.initData = some d → Rect d.cols d.rows)
    (hinit : ∀ ω g, init ω = .ok g → Rect cfg.nVars g.rows)
    (hI : I pm) (hlI : ∀ a g el ω a', I a → learn a g el ω = .ok a' → I a')
    (hs : ∀ a g ω, I a → sample a ω = .ok g → Rect cfg.nVars g.rows)
    {t : ℕ} {s s' : St (List K) C σ} {brk : Bool}
    {nz : Gen (List K) → Except PyErr (Gen (List K))} (hvis : Visited env e f ftol pm ρ t s)
    (hnz : e.mkNoise ρ.noise = .ok nz) (hst : step env e f ftol ρ nz t s = .ok (s', brk)) :
    ∃ s1 : St (List K) C σ, ∃ noisy : Gen (List K), truncation env e s = .ok s1 ∧ I s.pm ∧
      (s1.gen.rows.length : ℤ) = selLen fl cfg.sizeGen cfg.alpha ∧
      learn s.pm noisy s1.elite (ρ.learn t) = .ok s'.pm ∧
      noisy.rows.length = s1.gen.rows.length ∧
      (∀ j < cfg.nVars, mean (col noisy.rows j) = mean (col s1.gen.rows j) +
        noiseMean (selLen fl cfg.sizeGen cfg.alpha).toNat ρ.noise j) ∧
      ∀ j < cfg.nVars, ∀ i < s1.gen.rows.length,
        (col noisy.rows j).getD i 0 = (col s1.gen.rows j).getD i 0 + ρ.noise i j := by
  have hm := mkEda_ok he
  obtain ⟨s1, noisy, h1, h2, h3, h4, h5, _⟩ := C12_noise_only_training_set hv hw hw0
    (fun h => by rw [h] at hw0; exact absurd hw0 (by norm_num)) htr he hvis hnz hst
  have hinv : RowInv e ρ (fun r => r.length = cfg.nVars) (fun _ => True) I (fun _ => True) := by
    refine ⟨?_, fun _ _ _ _ _ _ => trivial, ?_, ?_⟩
    · intro g hg
      cases hi : cfg.initData with
      | none => rw [hm.initNone hi] at hg; exact hinit _ _ hg
      | some d =>
        obtain ⟨k1, k2⟩ := hm.initSome d hi
        rw [k2] at hg
        obtain rfl := Except.ok.inj hg
        intro r hr
        rw [hdata _ hi r hr]; exact k1
    · intro a g el t a' ha _ _ hu
      rw [hm.updatePm] at hu
      exact ⟨hlI _ _ _ _ _ ha hu, trivial⟩
    · intro a t g ha _ hg
      rw [hm.sample] at hg
      exact hs _ _ _ ha hg
  have hall := allRows_visited hv hinv hI hvis
  have hrect : Rect cfg.nVars s1.gen.rows := by
    intro r hr
    rcases (truncation_rows hv (visited_aligned hv hvis) h1).1 r hr with h | h
    · exact hall.gen r h
    · exact hall.elite r h
  rw [hm.truncLen] at h4
  refine ⟨s1, noisy, h1, hall.pm, h4, h2, h3, fun j hj => ?_, fun j hj i hi => col_noisy hrect h5 hj hi⟩
  rw [mean_col_noisy h3 hrect h5 hj]
  congr 2
  omega

/-- **C80** (partial: the shift does not average out) `UMDAc` with `w_noise > 0`: in every iteration the learned
mean of variable `j` is the mean of the selected individuals plus the mean of column `j` of the noise matrix,
the same number in all iterations of the run, and the new individuals are centred there. -/
theorem C80_UMDAc_partial (hv : env.Valid) (hsq : IsSqrt sq) {cfg : UMDAcCfg K}
    {e : Eda (List K) (UniGauss K) (Draws K)} {b : UniGauss K} (h : UMDAc fl sq cfg = .ok (e, b))
    (hn : 1 ≤ cfg.base.nVars) {w : K} (hw : cfg.base.wNoise = some w) (hw0 : 0 < w)
    (htr : 1 ≤ selLen fl cfg.base.sizeGen cfg.base.alpha)
    (hdata : ∀ d, cfg.base.initData = some d → Rect d.cols d.rows)
    {t : ℕ} {s s' : St (List K) C (UniGauss K)} {brk : Bool}
    {nz : Gen (List K) → Except PyErr (Gen (List K))} (hvis : Visited env e f ftol b ρ t s)
    (hnz : e.mkNoise ρ.noise = .ok nz) (hst : step env e f ftol ρ nz t s = .ok (s', brk)) :
    ∃ s1 : St (List K) C (UniGauss K), truncation env e s = .ok s1 ∧
      (s1.gen.rows.length : ℤ) = selLen fl cfg.base.sizeGen cfg.base.alpha ∧
      ∀ j < cfg.base.nVars,
        s'.pm.mean[j]? = some (mean (col s1.gen.rows j) +
          noiseMean (selLen fl cfg.base.sizeGen cfg.base.alpha).toNat ρ.noise j) ∧
        ∃ sd, s'.pm.std[j]? = some sd ∧ ∀ (i : ℕ) (r : List K), s'.gen.rows[i]? = some r →
          r[j]? = some (mean (col s1.gen.rows j) +
            noiseMean (selLen fl cfg.base.sizeGen cfg.base.alpha).toNat ρ.noise j + sd * ρ.sample t i j) := by
  obtain ⟨he, _, rfl⟩ := mkCont_ok h
  have hm := mkEda_ok he
  have hfl := floors_learn (K := K) hsq (n := cfg.base.nVars) (by omega) cfg.lowerFactor
  obtain ⟨s1, noisy, h1, hpm, h2, h3, h4, h5, _⟩ := noisy_training
    (I := fun c : UniGauss K => c.n = cfg.base.nVars ∧ c.lb = cfg.lowerFactor) hv hw hw0 (by omega) he hdata
    (fun ω g hg => (contInit_shape hg).2.2.1) ⟨rfl, rfl⟩
    (fun a g el ω a' ha hl => ⟨(hfl a g el ω a' ha.1 ha.2 hl).1.n, (hfl a g el ω a' ha.1 ha.2 hl).1.lb⟩)
    (fun a g ω ha hg => by rw [← ha.1]; exact (UniGauss.sample_shape hg).2.2.1) hvis hnz hst
  refine ⟨s1, h1, h2, ?_⟩
  have hne : noisy.rows ≠ [] := by
    intro h0
    rw [h0, List.length_nil] at h4
    omega
  have hc : s.pm.n ≤ noisy.cols := by
    by_contra hlt
    unfold UniGauss.learn at h3
    rw [if_neg (by rw [hpm.1]; omega), if_pos (by omega)] at h3
    cases h3
  have hwf : s.pm.n = 0 → s.pm.mean = [] ∧ s.pm.std = [] := fun h0 => absurd h0 (by rw [hpm.1]; omega)
  obtain ⟨b', k1, _, _, _, _, k2⟩ := C24_learn hsq hwf hc hne
  obtain rfl := Except.ok.inj (k1.symm.trans h3)
  obtain ⟨_, _, _, _, _, _, hstep⟩ := step_ok hst
  have hsam := hstep.sample
  rw [hm.sample] at hsam
  have hsize : 0 ≤ cfg.base.sizeGen := by
    have := (UniGauss.sample_shape hsam).2.2.2
    omega
  obtain ⟨_, out, k3, _, _, _, k4⟩ := C24_sample_after_learn hsq hwf k1 hsize (ρ.sample t)
  obtain rfl := Except.ok.inj (k3.symm.trans hsam)
  intro j hj
  have hmean := (k2 j (by rw [hpm.1]; exact hj)).1
  obtain ⟨sd, _, _, hsd⟩ := (k2 j (by rw [hpm.1]; exact hj)).2
  rw [h5 j hj] at hmean
  refine ⟨hmean, _, hsd, fun i r hr => ?_⟩
  obtain ⟨m', sd', q1, q2, q3⟩ := k4 i r hr j (by rw [hpm.1]; exact hj)
  rw [hmean] at q1
  rw [hsd] at q2
  obtain rfl := Option.some.inj q1
  obtain rfl := Option.some.inj q2
  exact q3

/-- **C80** (partial: the shift does not average out) `PBIL` with `w_noise > 0`: in every iteration the learned
mean of variable `j` is what the selected individuals give plus one and the same number. -/
theorem C80_PBIL_partial (hv : env.Valid) (hsq : IsSqrt sq) {cfg : UMDAcCfg K}
    {e : Eda (List K) (UniGauss K) (Draws K)} {b : UniGauss K} (h : PBIL fl sq cfg = .ok (e, b))
    (hn : 1 ≤ cfg.base.nVars) {w : K} (hw : cfg.base.wNoise = some w) (hw0 : 0 < w)
    (htr : 2 ≤ selLen fl cfg.base.sizeGen 1)
    (hdata : ∀ d, cfg.base.initData = some d → Rect d.cols d.rows)
    {t : ℕ} {s s' : St (List K) C (UniGauss K)} {brk : Bool}
    {nz : Gen (List K) → Except PyErr (Gen (List K))} (hvis : Visited env e f ftol b ρ t s)
    (hnz : e.mkNoise ρ.noise = .ok nz) (hst : step env e f ftol ρ nz t s = .ok (s', brk)) :
    ∃ s1 : St (List K) C (UniGauss K), truncation env e s = .ok s1 ∧
      (s1.gen.rows.length : ℤ) = selLen fl cfg.base.sizeGen 1 ∧
      ∀ j < cfg.base.nVars, s'.pm.mean[j]? = some
        (((1 - cfg.base.alpha) * mean (col s1.gen.rows j) + cfg.base.alpha * ((col s1.gen.rows j).getD 0 0 +
          (col s1.gen.rows j).getD 1 0 - (col s1.gen.rows j).getD (s1.gen.rows.length - 1) 0)) +
        ((1 - cfg.base.alpha) * noiseMean (selLen fl cfg.base.sizeGen 1).toNat ρ.noise j + cfg.base.alpha *
          (ρ.noise 0 j + ρ.noise 1 j - ρ.noise ((selLen fl cfg.base.sizeGen 1).toNat - 1) j))) := by
  obtain ⟨he, _, rfl⟩ := mkCont_ok h
  have hfl := floors_learnAdapt (K := K) hsq (n := cfg.base.nVars) (by omega) cfg.lowerFactor cfg.base.alpha
  obtain ⟨s1, noisy, h1, hpm, h2, h3, h4, h5, h6⟩ := noisy_training (cfg := { cfg.base with alpha := 1 })
    (sample := fun b ω => b.sample cfg.base.sizeGen ω)
    (I := fun c : UniGauss K => c.n = cfg.base.nVars ∧ c.lb = cfg.lowerFactor) hv (w := w) hw hw0
    (show 0 ≤ selLen fl cfg.base.sizeGen 1 by omega) he hdata
    (fun ω g hg => (contInit_shape hg).2.2.1) ⟨rfl, rfl⟩
    (fun a g el ω a' ha hl => ⟨(hfl a g el ω a' ha.1 ha.2 hl).1.n, (hfl a g el ω a' ha.1 ha.2 hl).1.lb⟩)
    (fun a g ω ha hg => by
      show Rect cfg.base.nVars g.rows
      rw [← ha.1]; exact (UniGauss.sample_shape hg).2.2.1) hvis hnz hst
  change (s1.gen.rows.length : ℤ) = selLen fl cfg.base.sizeGen 1 at h2
  refine ⟨s1, h1, h2, ?_⟩
  have h0 : s.pm.n ≠ 0 := by rw [hpm.1]; omega
  have hc : s.pm.n ≤ noisy.cols := by
    by_contra hlt
    unfold UniGauss.learnAdapt at h3
    rw [if_neg h0, if_pos (by omega)] at h3
    cases h3
  obtain ⟨b', k1, _, _, _, _, k2⟩ := C25_learn_partial hsq (alpha := cfg.base.alpha) (fun h => absurd h h0) hc
    (show 2 ≤ noisy.rows.length by omega)
  obtain rfl := Except.ok.inj (k1.symm.trans h3)
  intro j hj
  rw [(k2 j (by rw [hpm.1]; exact hj)).1, h5 j hj, h4, h6 j hj 0 (by omega), h6 j hj 1 (by omega),
    h6 j hj _ (by omega)]
  rw [show (selLen fl cfg.base.sizeGen 1).toNat = s1.gen.rows.length by omega]
  congr 1
  ring

/-- **C80** (partial: the shift does not average out) `EMNA` with `w_noise > 0`: in every iteration the learned
mean of variable `j` is the mean of the selected individuals plus the mean of column `j` of the noise matrix,
the same number in all iterations of the run. -/
theorem C80_EMNA_partial (hv : env.Valid) {cfg : EMNACfg K}
    {fac : List (List K) → List (List K)}
    {e : Eda (List K) (MultiGauss K) (Draws K)} {b : MultiGauss K} (h : EMNA fl sq fac cfg = .ok (e, b))
    {w : K} (hw : cfg.base.wNoise = some w) (hw0 : 0 < w)
    (htr : 2 ≤ selLen fl cfg.base.sizeGen cfg.base.alpha)
    (hdata : ∀ d, cfg.base.initData = some d → Rect d.cols d.rows)
    {t : ℕ} {s s' : St (List K) C (MultiGauss K)} {brk : Bool}
    {nz : Gen (List K) → Except PyErr (Gen (List K))} (hvis : Visited env e f ftol b ρ t s)
    (hnz : e.mkNoise ρ.noise = .ok nz) (hst : step env e f ftol ρ nz t s = .ok (s', brk)) :
    ∃ s1 : St (List K) C (MultiGauss K), truncation env e s = .ok s1 ∧
      (s1.gen.rows.length : ℤ) = selLen fl cfg.base.sizeGen cfg.base.alpha ∧
      ∀ j < cfg.base.nVars, s'.pm.means[j]? = some (mean (col s1.gen.rows j) +
        noiseMean (selLen fl cfg.base.sizeGen cfg.base.alpha).toNat ρ.noise j) := by
  obtain ⟨he, _, rfl⟩ := EMNA_ok h
  have hlearn : ∀ {a a' : MultiGauss K} {g : Gen (List K)}, a.learn sq g = .ok a' →
      a'.n = a.n ∧ a'.means = (List.range a.n).map (colMean g.rows) := by
    intro a a' g hl
    unfold MultiGauss.learn at hl
    split at hl
    · cases hl
    split at hl
    · cases hl
    split at hl
    · cases hl
    rw [← Except.ok.inj hl]
    exact ⟨rfl, rfl⟩
  obtain ⟨s1, noisy, h1, hpm, h2, h3, h4, h5, _⟩ := noisy_training
    (I := fun c : MultiGauss K => c.n = cfg.base.nVars ∧ c.means.length = cfg.base.nVars) hv hw hw0 (by omega) he
    hdata (fun ω g hg => (uniformInitSample_shape hg).2.2.1) ⟨rfl, (MultiGauss.new_good _ _ _).means⟩
    (fun a g el ω a' ha hl => by
      obtain ⟨q1, q2⟩ := hlearn hl
      exact ⟨q1.trans ha.1, by rw [q2]; simp [ha.1]⟩)
    (fun a g ω ha hg => by rw [← ha.2]; exact (MultiGauss.sample_shape hg).2.2.1) hvis hnz hst
  refine ⟨s1, h1, h2, fun j hj => ?_⟩
  rw [(hlearn h3).2, hpm.1, List.getElem?_map, List.getElem?_range hj, Option.map_some, colMean_eq, h5 j hj]

end shift

section law
variable {Ω : Type} [MeasurableSpace Ω] {P : Measure Ω} {U : Ω → Draws ℝ}

theorem noise_sum_law {v : NNReal} (hU : IndepDraws P (fun _ => gaussianReal 0 v) U) (j k : ℕ) :
    P.map (∑ i ∈ Finset.range k, fun ω => U ω i j) = gaussianReal 0 (k * v) := by
  have : IsProbabilityMeasure P := (hU.law 0 0).isProbabilityMeasure
  have hind : iIndepFun (fun i ω => U ω i j) P :=
    hU.rows.comp (fun _ r => r j) (fun _ => measurable_pi_apply j)
  induction k with
  | zero =>
    rw [Finset.range_zero, Finset.sum_empty, Nat.cast_zero, zero_mul, gaussianReal_zero_var]
    show P.map (fun _ => (0 : ℝ)) = _
    rw [Measure.map_const, measure_univ, one_smul]
  | succ k ih =>
    rw [Finset.sum_range_succ]
    have h := hind.indepFun_finsetSum_of_notMem (fun i => hU.measurable i j) (s := Finset.range k) (i := k) (by simp)
    rw [gaussianReal_add_gaussianReal_of_indepFun h ih (hU.law k j).map_eq]
    congr 1
    · simp
    · push_cast; ring

/-- **C80** (partial: this is over the noise matrices of different runs, not over the iterations of one) the
shift of a run is normally distributed with mean 0 and variance `w² / truncation_length`. -/
theorem C80_shift_law_partial {w : ℝ} (hU : IndepDraws P (fun _ => gaussianReal 0 (.mk (w ^ 2) (sq_nonneg w))) U) {k : ℕ}
    (hk : 1 ≤ k) (j : ℕ) :
    HasLaw (fun ω => noiseMean k (U ω) j) (gaussianReal 0 (.mk (w ^ 2 / k) (by positivity))) P := by
  have hform : (fun ω => noiseMean k (U ω) j) =
      fun ω => (k : ℝ)⁻¹ * (∑ i ∈ Finset.range k, fun ω => U ω i j) ω := by
    funext ω
    unfold noiseMean
    rw [mean_range (m := k) (by simp), Finset.sum_apply, div_eq_inv_mul]
    congr 1
    refine Finset.sum_congr rfl fun i hi => ?_
    simp [List.getD_eq_getElem?_getD, List.getElem?_range (Finset.mem_range.1 hi)]
  rw [hform]
  have hmeas : AEMeasurable (∑ i ∈ Finset.range k, fun ω => U ω i j) P :=
    Finset.aemeasurable_sum _ fun i _ => (hU.measurable i j).aemeasurable
  have h := gaussianReal_const_mul ⟨hmeas, noise_sum_law hU j k⟩ (k : ℝ)⁻¹
  convert h using 2
  · simp
  · have : (k : ℝ) ≠ 0 := by positivity
    apply NNReal.eq
    push_cast
    show w ^ 2 / k = ((k : ℝ)⁻¹) ^ 2 * (k * w ^ 2)
    field_simp

/-- **C80** (partial) averaged over the noise matrices of different runs the shift is 0. -/
theorem C80_shift_mean_partial {w : ℝ} (hU : IndepDraws P (fun _ => gaussianReal 0 (.mk (w ^ 2) (sq_nonneg w))) U) {k : ℕ}
    (hk : 1 ≤ k) (j : ℕ) : ∫ ω, noiseMean k (U ω) j ∂P = 0 := by
  rw [(C80_shift_law_partial hU hk j).integral_eq, integral_id_gaussianReal]

/-- The shift of a run is almost never 0. -/
theorem shift_ne_zero {w : ℝ} (hw : w ≠ 0) (hU : IndepDraws P (fun _ => gaussianReal 0 (.mk (w ^ 2) (sq_nonneg w))) U)
    {k : ℕ} (hk : 1 ≤ k) (j : ℕ) : ∀ᵐ ω ∂P, noiseMean k (U ω) j ≠ 0 := by
  have hlaw := C80_shift_law_partial hU hk j
  have hv : NNReal.mk (w ^ 2 / k) (by positivity) ≠ 0 := by
    intro h
    have h' : w ^ 2 / (k : ℝ) = 0 := congrArg NNReal.toReal h
    have : 0 < w ^ 2 / (k : ℝ) := by positivity
    linarith
  have hna := nullSingletonClass_gaussianReal (μ := 0) hv
  have h0 : ∀ᵐ x ∂(P.map (fun ω => noiseMean k (U ω) j)), x ≠ 0 := by
    rw [hlaw.map_eq, ae_iff]
    simp
  exact ae_of_ae_map hlaw.aemeasurable h0

/-- **C80** is false for one run: with probability 1 the noise matrix of the run is such that, whatever the cost
function and the other random numbers, the learned mean of every variable misses the mean of the selected
individuals in every iteration, and always by the same amount. -/
theorem C80_refuted {C : Type} [PyCost C] {env : Env C} {f : ℕ → List ℝ → C} {ftol : C} {fl : ℝ → ℝ} (hv : env.Valid)
    {cfg : UMDAcCfg ℝ} {e : Eda (List ℝ) (UniGauss ℝ) (Draws ℝ)} {b : UniGauss ℝ}
    (h : UMDAc fl Real.sqrt cfg = .ok (e, b)) (hn : 1 ≤ cfg.base.nVars) {w : ℝ} (hw : cfg.base.wNoise = some w)
    (hw0 : 0 < w) (htr : 1 ≤ selLen fl cfg.base.sizeGen cfg.base.alpha)
    (hdata : ∀ d, cfg.base.initData = some d → Rect d.cols d.rows)
    (hU : IndepDraws P (fun _ => gaussianReal 0 (.mk (w ^ 2) (sq_nonneg w))) U) :
    ∀ᵐ ω ∂P, ∃ δ : ℕ → ℝ, ∀ j < cfg.base.nVars, δ j ≠ 0 ∧
      ∀ (ρ : Rand (Draws ℝ)), ρ.noise = U ω → ∀ (t : ℕ) (s s' : St (List ℝ) C (UniGauss ℝ)) (brk : Bool) nz,
        Visited env e f ftol b ρ t s → e.mkNoise ρ.noise = .ok nz → step env e f ftol ρ nz t s = .ok (s', brk) →
        ∃ s1 : St (List ℝ) C (UniGauss ℝ), truncation env e s = .ok s1 ∧
          s'.pm.mean[j]? = some (mean (col s1.gen.rows j) + δ j) := by
  have hall : ∀ᵐ ω ∂P, ∀ j : ℕ, noiseMean (selLen fl cfg.base.sizeGen cfg.base.alpha).toNat (U ω) j ≠ 0 :=
    ae_all_iff.2 fun j => shift_ne_zero hw0.ne' hU (by omega) j
  filter_upwards [hall] with ω hω
  refine ⟨_, fun j hj => ⟨hω j, ?_⟩⟩
  intro ρ hρ t s s' brk nz hvis hnz hst
  obtain ⟨s1, h1, _, h2⟩ := C80_UMDAc_partial hv real_isSqrt h hn hw hw0 htr hdata hvis hnz hst
  refine ⟨s1, h1, ?_⟩
  rw [← hρ]
  exact (h2 j hj).1

end law

/-! ### Examples -/

namespace Ex

/-- A run of `UMDAc` with the noise matrix `[[1, 0], [2, 0]]` (means `3/2` and `0`). -/
example : noiseMean 2 (fun i j => if j = 0 then (i : ℚ) + 1 else 0) 0 = 3 / 2 := by
  simp [noiseMean, Spec.mean, List.range_succ]; norm_num

/-- `UMDAc` with noise 1/2: 4 individuals of one variable, 2 selected. -/
noncomputable def shifted : UMDAcCfg ℝ := { cont with base := { cont.base with wNoise := some (1/2) } }

theorem shifted_valid : ContValid realEnv.cpu shifted.base shifted 4
    (selLen id shifted.base.sizeGen shifted.base.alpha) where
  dead := by decide
  size := by decide
  pos := by decide
  trunc := by show 1 ≤ selLen id 4 (1/2); rw [selLen_half]; norm_num
  cpu := fun h => absurd h (by decide)
  noise := by
    right
    refine ⟨?_, by show selLen id 4 (1/2) ≤ _; rw [selLen_half]; norm_num⟩
    unfold BaseCfg.noiseAttr
    simp [shifted]
  init := fun _ => cont_usable
  build := (initUsable_sample (fl := id) cont_usable (by decide)).1
  data := by intro d h; cases h

/-- There are iterations as in C80, with any random numbers. -/
example (ρ : Rand (Draws ℝ)) : ∃ e b, UMDAc id Real.sqrt shifted = .ok (e, b) ∧
    1 ≤ selLen id shifted.base.sizeGen shifted.base.alpha ∧ shifted.base.wNoise = some (1/2) ∧
    ∃ nz s s' brk, Visited realEnv e (fun _ r => r.sum) 0 b ρ 1 s ∧ e.mkNoise ρ.noise = .ok nz ∧
      step realEnv e (fun _ r => r.sum) 0 ρ nz 1 s = .ok (s', brk) := by
  obtain ⟨e, b, h, res, s, hrun⟩ := C53_UMDAc_never_raises (env := realEnv) (f := fun _ r => r.sum) (ftol := 0)
    (ρ := ρ) realEnv_valid real_isSqrt shifted_valid (fun _ _ => field_isNum _)
  have hm := mkEda_ok (mkCont_ok h).1
  obtain ⟨s0, nz, s1, brk, h0, hn, hst⟩ := first_pass (by rw [hm.maxIter]; decide) hrun
  exact ⟨e, b, h, shifted_valid.trunc, rfl, nz, s0, s1, brk, .first h0, hn, hst⟩

/-- Noise matrices of independent normal numbers exist. -/
example : ∃ (P : Measure (ℕ → ℕ → ℝ)) (U : (ℕ → ℕ → ℝ) → Draws ℝ),
    IndepDraws P (fun _ => gaussianReal 0 (.mk ((1/2 : ℝ) ^ 2) (sq_nonneg _))) U := ⟨_, _, indepDraws_exist _⟩

end Ex

end Verif
