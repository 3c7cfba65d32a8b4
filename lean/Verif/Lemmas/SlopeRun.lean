/-
Runs without elite whose deviations shrink on average: the sum of all moves has a finite expectation.
-/
import Verif.Lemmas.SlopeGen
import Mathlib.MeasureTheory.Integral.MeanInequalities
import Mathlib.MeasureTheory.Constructions.Polish.Basic

set_option linter.unusedSectionVars false

namespace Verif

open MeasureTheory ProbabilityTheory Spec

theorem eachGen_probability : IsProbabilityMeasure (eachGen Spec.normalDraws) := by unfold eachGen; infer_instance

/-- The mean of what depends on the past and a fresh draw. -/
theorem fresh_mean_le {X : Type} [MeasurableSpace X] (D : Measure X) [IsProbabilityMeasure D] (t : ℕ)
    {F : (ℕ → X) × X → ENNReal} (hF : Measurable F)
    (hpast : ∀ ω ω' x, (∀ i < t, ω i = ω' i) → F (ω, x) = F (ω', x)) {G : (ℕ → X) → ENNReal} (hG : Measurable G)
    (hGpast : ∀ ω ω', (∀ i < t, ω i = ω' i) → G ω = G ω') {c : ENNReal}
    (h : ∀ ω, ∫⁻ x, F (ω, x) ∂D ≤ c * G ω) :
    ∫⁻ ω, F (ω, ω t) ∂Measure.infinitePi (fun _ : ℕ => D) ≤ c * ∫⁻ ω, G ω ∂Measure.infinitePi (fun _ : ℕ => D) := by
  obtain ⟨x0⟩ : Nonempty X := by
    by_contra h
    rw [not_nonempty_iff] at h
    have := measure_univ (μ := D)
    rw [Set.univ_eq_empty_iff.2 h, measure_empty] at this
    exact zero_ne_one this
  have hb := before_measurable x0 t
  have hZ : Measurable fun ω : ℕ → X => ω t := measurable_pi_apply t
  have hbe : ∀ ω : ℕ → X, ∀ i < t, ω i = before x0 t ω i := fun ω i hi => by simp [before, hi]
  have e1 : ∀ ω : ℕ → X, F (ω, ω t) = F (before x0 t ω, ω t) := fun ω => hpast _ _ _ (hbe ω)
  have e2 : ∀ ω : ℕ → X, G ω = G (before x0 t ω) := fun ω => hGpast _ _ (hbe ω)
  have hprod := (indepFun_iff_map_prod_eq_prod_map_map hb.aemeasurable hZ.aemeasurable).1 (before_indep D x0 t)
  have hmap : (Measure.infinitePi fun _ : ℕ => D).map (fun ω => ω t) = D := Measure.infinitePi_map_eval _ t
  calc ∫⁻ ω, F (ω, ω t) ∂Measure.infinitePi (fun _ : ℕ => D)
      = ∫⁻ ω, F (before x0 t ω, ω t) ∂Measure.infinitePi (fun _ : ℕ => D) := lintegral_congr e1
    _ = ∫⁻ u, F u ∂((Measure.infinitePi fun _ : ℕ => D).map fun ω => (before x0 t ω, ω t)) :=
        (lintegral_map hF (hb.prodMk hZ)).symm
    _ = ∫⁻ y, ∫⁻ x, F (y, x) ∂D ∂((Measure.infinitePi fun _ : ℕ => D).map (before x0 t)) := by
        rw [hprod, hmap, lintegral_prod _ hF.aemeasurable]
    _ ≤ ∫⁻ y, c * G y ∂((Measure.infinitePi fun _ : ℕ => D).map (before x0 t)) := lintegral_mono h
    _ = c * ∫⁻ ω, G (before x0 t ω) ∂Measure.infinitePi (fun _ : ℕ => D) := by
        rw [lintegral_const_mul _ hG, lintegral_map hG hb]
    _ = c * ∫⁻ ω, G ω ∂Measure.infinitePi (fun _ : ℕ => D) := by
        congr 1; exact (lintegral_congr e2).symm

/-- The mean is at most the root of the mean of the squares. -/
theorem mean_le_root {Ω : Type} [MeasurableSpace Ω] {μ : Measure Ω} [IsProbabilityMeasure μ] {f : Ω → ℝ}
    (hf : Measurable f) (h0 : ∀ x, 0 ≤ f x) {s : ℝ} (hs : 0 ≤ s)
    (h : ∫⁻ x, ENNReal.ofReal (f x ^ 2) ∂μ ≤ ENNReal.ofReal (s ^ 2)) :
    ∫⁻ x, ENNReal.ofReal (f x) ∂μ ≤ ENNReal.ofReal s := by
  have hh := ENNReal.lintegral_mul_le_Lp_mul_Lq μ (p := 2) (q := 2) ⟨by norm_num, by norm_num, by norm_num⟩
    hf.ennreal_ofReal.aemeasurable (aemeasurable_const (b := (1 : ENNReal)))
  simp only [Pi.mul_apply, mul_one, ENNReal.one_rpow, lintegral_const, measure_univ] at hh
  refine hh.trans ?_
  have e : ∀ x, ENNReal.ofReal (f x) ^ (2 : ℝ) = ENNReal.ofReal (f x ^ 2) := by
    intro x
    rw [ENNReal.ofReal_rpow_of_nonneg (h0 x) (by norm_num)]
    norm_num
  simp only [e]
  refine (ENNReal.rpow_le_rpow h (by norm_num)).trans ?_
  rw [ENNReal.ofReal_rpow_of_nonneg (sq_nonneg _) (by norm_num)]
  rw [← Real.sqrt_eq_rpow, Real.sqrt_sq hs]

/-- The sum of the absolute values of the draws for a variable. -/
def drawSum (N j : ℕ) (z : Draws ℝ) : ℝ := ∑ i ∈ Finset.range N, |z i j|

theorem drawSum_nonneg (N j : ℕ) (z : Draws ℝ) : 0 ≤ drawSum N j z := Finset.sum_nonneg fun _ _ => abs_nonneg _

theorem drawSum_ge {N j i : ℕ} (hi : i < N) (z : Draws ℝ) : |z i j| ≤ drawSum N j z :=
  Finset.single_le_sum (f := fun i => |z i j|) (fun _ _ => abs_nonneg _) (Finset.mem_range.2 hi)

theorem cell_apply_measurable (i j : ℕ) : Measurable fun z : Draws ℝ => z i j :=
  (measurable_pi_apply j).comp (measurable_pi_apply i)

theorem drawSum_measurable (N j : ℕ) : Measurable (drawSum N j) :=
  Finset.measurable_fun_sum _ fun i _ => continuous_abs.measurable.comp (cell_apply_measurable i j)

theorem drawSum_mean (N j : ℕ) : ∫⁻ z, ENNReal.ofReal (drawSum N j z) ∂Spec.normalDraws ≤ ENNReal.ofReal N := by
  have h1 : ∀ i : ℕ, ∫⁻ z : Draws ℝ, ENNReal.ofReal |z i j| ∂Spec.normalDraws ≤ 1 := by
    intro i
    have hp : MeasurePreserving (fun z : Draws ℝ => z i) Spec.normalDraws Verif.normalDraws :=
      measurePreserving_eval_infinitePi (fun _ : ℕ => Verif.normalDraws) i
    have hp2 := (draw_law j).comp hp
    have e := hp2.lintegral_comp (f := fun x : ℝ => ENNReal.ofReal |x|)
      (continuous_abs.measurable.ennreal_ofReal)
    simp only [Function.comp] at e
    rw [e]
    have := mean_le_root (μ := gaussianReal 0 1) (f := fun x : ℝ => |x|) continuous_abs.measurable
      (fun _ => abs_nonneg _) (s := 1) zero_le_one (by
        simp only [sq_abs, one_pow]
        rw [← ofReal_integral_eq_lintegral_ofReal sq_gauss (Filter.Eventually.of_forall fun _ => sq_nonneg _)]
        have h := (normal_expectation 1).var 0 (by omega)
        unfold normalMean at h
        rw [draw_integral 0 (f := fun x => x * x) (by fun_prop)] at h
        simp only [pow_two, h, le_refl])
    simpa using this
  unfold drawSum
  simp only [ENNReal.ofReal_sum_of_nonneg (fun i (_ : i ∈ Finset.range N) => abs_nonneg _)]
  have hm : ∀ i, Measurable fun z : Draws ℝ => ENNReal.ofReal |z i j| := fun i =>
    (continuous_abs.measurable.comp (cell_apply_measurable i j)).ennreal_ofReal
  rw [lintegral_finsetSum _ fun i _ => hm i]
  refine (Finset.sum_le_card_nsmul _ _ 1 fun i _ => h1 i).trans (le_of_eq ?_)
  simp

namespace PureRun
variable {n : ℕ} (p : PureRun n)

/-- A run without elite; the deviation of variable `j` is that of the selected individuals, the mean is not further
away from any point than `κ` times the furthest selected individual, and the deviations shrink on average. -/
structure Shrinks (j : Fin n) (q : ℕ) (κ : ℝ) : Prop where
  kT : p.kT = q
  kE : p.kE = 0
  pos : 1 ≤ q
  le : q ≤ p.size
  srt : IsArgsort p.srt
  sd : ∀ P, p.sd P j = Real.sqrt (Spec.variance (P.map fun r => r j))
  mu : ∀ P : List (Fin n → ℝ), P.length = q → ∀ c B : ℝ, 0 ≤ B → (∀ r ∈ P, |r j - c| ≤ B) → |p.mu P j - c| ≤ κ * B
  one : 1 ≤ κ
  spread : ∀ m d : Fin n → ℝ,
    ∫⁻ z, ENNReal.ofReal (Spec.variance ((p.pick q (sampled n p.size m d z)).map fun r => r j)) ∂Spec.normalDraws ≤
      ENNReal.ofReal ((1 - 1 / q) * d j ^ 2)
  sort : ComparisonSort p.srt
  costMeas : Measurable p.cost
  muMeas : ∀ j, Measurable fun P => p.mu P j
  sdMeas : ∀ j, Measurable fun P => p.sd P j

variable {p}

theorem variance_nonneg' (l : List ℝ) : 0 ≤ Spec.variance l := by
  unfold Spec.variance Spec.mean
  refine div_nonneg (List.sum_nonneg fun x hx => ?_) (by positivity)
  obtain ⟨y, _, rfl⟩ := List.mem_map.1 hx
  exact sq_nonneg _

/-- The deviation of a variable after pass `t + 1`. -/
def dev (p : PureRun n) (j : Fin n) (ω : ℕ → Draws ℝ) (t : ℕ) : ℝ := p.sd (p.sel ω t) j

theorem dev_measurable {j : Fin n} {q : ℕ} {κ : ℝ} (h : p.Shrinks j q κ) (t : ℕ) : Measurable fun ω => p.dev j ω t :=
  (h.sdMeas j).comp (p.sel_measurable h.sort h.costMeas h.muMeas h.sdMeas t)

theorem dev_past {j : Fin n} (ω ω' : ℕ → Draws ℝ) (t : ℕ) (h : ∀ i < t + 1, ω i = ω' i) : p.dev j ω t = p.dev j ω' t := by
  unfold dev; rw [p.sel_past ω ω' t fun i _ hi => h i (by omega)]

theorem dev_nonneg {j : Fin n} {q : ℕ} {κ : ℝ} (h : p.Shrinks j q κ) (ω : ℕ → Draws ℝ) (t : ℕ) : 0 ≤ p.dev j ω t := by
  unfold dev; rw [h.sd]; exact Real.sqrt_nonneg _

theorem sel_succ {j : Fin n} {q : ℕ} {κ : ℝ} (h : p.Shrinks j q κ) (ω : ℕ → Draws ℝ) (t : ℕ) :
    p.sel ω (t + 1) = p.pick q (sampled n p.size (p.mu (p.sel ω t)) (p.sd (p.sel ω t)) (ω (t + 1))) := by
  unfold sel
  simp only [pops]
  have : p.pick p.kE ((p.pops ω t).1 ++ (p.pops ω t).2) = [] := by
    rw [h.kE]; simp [pick, sliceTo, takeIdx]
  rw [this, List.append_nil, h.kT]
  rfl

theorem dev_step {j : Fin n} {q : ℕ} {κ : ℝ} (h : p.Shrinks j q κ) (t : ℕ) :
    ∫⁻ ω, ENNReal.ofReal (p.dev j ω (t + 1) ^ 2) ∂eachGen Spec.normalDraws ≤
      ENNReal.ofReal (1 - 1 / q) * ∫⁻ ω, ENNReal.ofReal (p.dev j ω t ^ 2) ∂eachGen Spec.normalDraws := by
  let F : (ℕ → Draws ℝ) × Draws ℝ → ENNReal := fun u =>
    ENNReal.ofReal (Spec.variance ((p.pick q (sampled n p.size (p.mu (p.sel u.1 t)) (p.sd (p.sel u.1 t)) u.2)).map
      fun r => r j))
  have hF : Measurable F := by
    refine (meas_variance.comp ((meas_column j).comp ?_)).ennreal_ofReal
    refine meas_select h.sort ?_ h.costMeas _
    refine meas_rangeMap fun i => measurable_pi_iff.2 fun k => ?_
    have hsel : Measurable fun u : (ℕ → Draws ℝ) × Draws ℝ => p.sel u.1 t :=
      (p.sel_measurable h.sort h.costMeas h.muMeas h.sdMeas t).comp measurable_fst
    exact ((h.muMeas k).comp hsel).add (((h.sdMeas k).comp hsel).mul
      ((cell_apply_measurable i k).comp measurable_snd))
  have e : ∀ ω, ENNReal.ofReal (p.dev j ω (t + 1) ^ 2) = F (ω, ω (t + 1)) := by
    intro ω
    simp only [F, dev]
    rw [h.sd, Real.sq_sqrt (variance_nonneg' _), sel_succ h]
  simp only [e]
  refine fresh_mean_le Spec.normalDraws (t + 1) hF ?_ ((dev_measurable h t).pow_const 2).ennreal_ofReal ?_ fun ω => ?_
  · intro ω ω' x hp
    simp only [F]
    rw [p.sel_past ω ω' t fun i _ hi => hp i (by omega)]
  · intro ω ω' hp
    rw [dev_past ω ω' t hp]
  · have hsp := h.spread (p.mu (p.sel ω t)) (p.sd (p.sel ω t))
    have : (0 : ℝ) ≤ 1 - 1 / q := by
      have : (1 : ℝ) ≤ q := by exact_mod_cast h.pos
      rw [sub_nonneg, div_le_one (by linarith)]; exact this
    rw [ENNReal.ofReal_mul this] at hsp
    exact hsp

/-- The mean square of the deviation. -/
theorem dev_sq {j : Fin n} {q : ℕ} {κ : ℝ} (h : p.Shrinks j q κ) (t : ℕ) :
    ∫⁻ ω, ENNReal.ofReal (p.dev j ω t ^ 2) ∂eachGen Spec.normalDraws ≤
      ENNReal.ofReal ((1 - 1 / q) ^ t * p.dev j (fun _ _ _ => 0) 0 ^ 2) := by
  have := eachGen_probability
  have h0 : (0 : ℝ) ≤ 1 - 1 / q := by
    have : (1 : ℝ) ≤ q := by exact_mod_cast h.pos
    rw [sub_nonneg, div_le_one (by linarith)]; exact this
  induction t with
  | zero =>
    have : ∀ ω, p.dev j ω 0 = p.dev j (fun _ _ _ => 0) 0 := by
      intro ω; unfold dev; rw [p.sel_past ω (fun _ _ _ => 0) 0 fun i h1 h2 => by omega]
    simp only [this, lintegral_const, pow_zero, one_mul]
    rw [measure_univ (μ := eachGen Spec.normalDraws), mul_one]
  | succ t ih =>
    refine (dev_step h t).trans ((mul_le_mul_right ih _).trans (le_of_eq ?_))
    rw [← ENNReal.ofReal_mul h0]
    congr 1; ring

/-- The mean of one move. -/
theorem move_mean {j : Fin n} {q : ℕ} {κ : ℝ} (h : p.Shrinks j q κ) (t : ℕ) :
    ∫⁻ ω, ENNReal.ofReal (p.dev j ω t * drawSum p.size j (ω (t + 1))) ∂eachGen Spec.normalDraws ≤
      ENNReal.ofReal (p.size * (Real.sqrt (1 - 1 / q) ^ t * p.dev j (fun _ _ _ => 0) 0)) := by
  have := eachGen_probability
  have h0 : (0 : ℝ) ≤ 1 - 1 / q := by
    have : (1 : ℝ) ≤ q := by exact_mod_cast h.pos
    rw [sub_nonneg, div_le_one (by linarith)]; exact this
  have hd := dev_nonneg h
  have h1 := mean_le_root (dev_measurable h t) (fun ω => hd ω t) (μ := eachGen Spec.normalDraws)
    (s := Real.sqrt (1 - 1 / q) ^ t * p.dev j (fun _ _ _ => 0) 0) (mul_nonneg (by positivity) (hd _ _)) (by
      refine (dev_sq h t).trans (le_of_eq ?_)
      rw [mul_pow, ← pow_mul, mul_comm t 2, pow_mul, Real.sq_sqrt h0])
  have e : ∀ ω, ENNReal.ofReal (p.dev j ω t * drawSum p.size j (ω (t + 1))) =
      (fun u : (ℕ → Draws ℝ) × Draws ℝ => ENNReal.ofReal (p.dev j u.1 t) * ENNReal.ofReal (drawSum p.size j u.2))
        (ω, ω (t + 1)) := fun ω => ENNReal.ofReal_mul (hd ω t)
  simp only [e]
  refine (fresh_mean_le Spec.normalDraws (t + 1) (c := ENNReal.ofReal p.size)
    (F := fun u : (ℕ → Draws ℝ) × Draws ℝ => ENNReal.ofReal (p.dev j u.1 t) * ENNReal.ofReal (drawSum p.size j u.2))
    (G := fun ω => ENNReal.ofReal (p.dev j ω t)) ?_ ?_ (dev_measurable h t).ennreal_ofReal ?_ fun ω => ?_).trans ?_
  · exact ((dev_measurable h t).comp measurable_fst).ennreal_ofReal.mul
      ((drawSum_measurable _ _).comp measurable_snd).ennreal_ofReal
  · intro ω ω' x hp
    simp only
    rw [dev_past ω ω' t hp]
  · intro ω ω' hp
    rw [dev_past ω ω' t hp]
  · simp only
    rw [lintegral_const_mul _ (drawSum_measurable _ _).ennreal_ofReal, mul_comm]
    gcongr
    exact drawSum_mean _ _
  · rw [ENNReal.ofReal_mul (by positivity)]
    gcongr
    exact h1

/-- How far the sampled individuals and the means have moved. -/
theorem move_bound {j : Fin n} {q : ℕ} {κ : ℝ} (h : p.Shrinks j q κ) (ω : ℕ → Draws ℝ) (t : ℕ) :
    |p.mu (p.sel ω t) j - p.mu (p.sel ω 0) j| ≤
      κ * ∑ s ∈ Finset.range t, p.dev j ω s * drawSum p.size j (ω (s + 1)) := by
  induction t with
  | zero => simp
  | succ t ih =>
    have hd := dev_nonneg h ω t
    have hstep : |p.mu (p.sel ω (t + 1)) j - p.mu (p.sel ω t) j| ≤ κ * (p.dev j ω t * drawSum p.size j (ω (t + 1))) := by
      obtain ⟨I, h1, h2, h3, _, _⟩ := p.pick_positions h.srt h.le fun i k =>
        p.mu (p.sel ω t) k + p.sd (p.sel ω t) k * ω (t + 1) i k
      have hsel : p.sel ω (t + 1) = I.map fun (i : Fin p.size) k =>
          p.mu (p.sel ω t) k + p.sd (p.sel ω t) k * ω (t + 1) i k := by
        rw [sel_succ h, ← h3]; rfl
      refine h.mu _ (by rw [hsel, List.length_map, h2]) _ _ (mul_nonneg hd (drawSum_nonneg _ _ _)) fun r hr => ?_
      rw [hsel] at hr
      obtain ⟨i, _, rfl⟩ := List.mem_map.1 hr
      simp only [add_sub_cancel_left]
      rw [abs_mul]
      have e : |p.sd (p.sel ω t) j| = p.dev j ω t := abs_of_nonneg hd
      rw [e]
      exact mul_le_mul_of_nonneg_left (drawSum_ge i.2 _) hd
    rw [Finset.sum_range_succ, mul_add]
    calc |p.mu (p.sel ω (t + 1)) j - p.mu (p.sel ω 0) j|
        ≤ |p.mu (p.sel ω (t + 1)) j - p.mu (p.sel ω t) j| + |p.mu (p.sel ω t) j - p.mu (p.sel ω 0) j| :=
          abs_sub_le _ _ _
      _ ≤ _ := by linarith

/-- The individuals of all generations but the first. -/
theorem sample_bound {j : Fin n} {q : ℕ} {κ : ℝ} (h : p.Shrinks j q κ) (ω : ℕ → Draws ℝ) (t : ℕ)
    {x : Fin n → ℝ} (hx : x ∈ (p.pops ω (t + 1)).1) :
    |x j - p.mu (p.sel ω 0) j| ≤ κ * ∑ s ∈ Finset.range (t + 1), p.dev j ω s * drawSum p.size j (ω (s + 1)) := by
  simp only [pops] at hx
  obtain ⟨i, hi, rfl⟩ := List.mem_map.1 hx
  have hd := dev_nonneg h ω t
  have hm := move_bound h ω t
  have h1 : |p.dev j ω t * ω (t + 1) i j| ≤ κ * (p.dev j ω t * drawSum p.size j (ω (t + 1))) := by
    rw [abs_mul, abs_of_nonneg hd]
    have := mul_le_mul_of_nonneg_left (drawSum_ge (j := j) (List.mem_range.1 hi) (ω (t + 1))) hd
    refine this.trans (le_mul_of_one_le_left (mul_nonneg hd (drawSum_nonneg _ _ _)) h.one)
  rw [Finset.sum_range_succ, mul_add]
  have e : p.mu (p.pick p.kT ((p.pops ω t).1 ++ (p.pops ω t).2)) j +
      p.sd (p.pick p.kT ((p.pops ω t).1 ++ (p.pops ω t).2)) j * ω (t + 1) i j - p.mu (p.sel ω 0) j =
      (p.mu (p.sel ω t) j - p.mu (p.sel ω 0) j) + p.dev j ω t * ω (t + 1) i j := by
    unfold dev sel; ring
  rw [e]
  exact (abs_add_le _ _).trans (add_le_add hm h1)

/-- `1 - √(1 - 1/q)` is at least `1/(2q)`. -/
theorem root_gap {q : ℕ} (hq : 1 ≤ q) : (1 - ENNReal.ofReal (Real.sqrt (1 - 1 / q)))⁻¹ ≤ ENNReal.ofReal (2 * q) := by
  have hq' : (1 : ℝ) ≤ q := by exact_mod_cast hq
  have h1 : Real.sqrt (1 - 1 / q) ≤ 1 - 1 / (2 * q) := by
    rw [Real.sqrt_le_left (by rw [sub_nonneg, div_le_one (by linarith)]; linarith)]
    have : (1 - 1 / (2 * (q : ℝ))) ^ 2 = 1 - 1 / q + (1 / (2 * q)) ^ 2 := by field_simp; ring
    rw [this]
    linarith [sq_nonneg (1 / (2 * (q : ℝ)))]
  rw [ENNReal.inv_le_iff_inv_le, ← ENNReal.ofReal_inv_of_pos (by linarith)]
  rw [show (1 : ENNReal) = ENNReal.ofReal 1 by simp, ← ENNReal.ofReal_sub _ (Real.sqrt_nonneg _)]
  refine ENNReal.ofReal_le_ofReal ?_
  rw [← one_div]; linarith

/-- **The run stays near the mean of the first pass.** -/
theorem far_probability {j : Fin n} {q : ℕ} {κ : ℝ} (h : p.Shrinks j q κ) {R : ℝ} (hR : 0 < R) :
    eachGen Spec.normalDraws {ω | ∃ t, ∃ x ∈ (p.pops ω (t + 1)).1, R ≤ |x j - p.mu (p.sel (fun _ _ _ => 0) 0) j|} ≤
      ENNReal.ofReal (2 * q * p.size * κ * p.dev j (fun _ _ _ => 0) 0 / R) := by
  set d := p.dev j (fun _ _ _ => 0) 0 with hd
  have hd0 : 0 ≤ d := dev_nonneg h _ _
  have hκ : 0 ≤ κ := zero_le_one.trans h.one
  let U : ℕ → (ℕ → Draws ℝ) → ENNReal := fun s ω => ENNReal.ofReal (p.dev j ω s * drawSum p.size j (ω (s + 1)))
  have hU : ∀ s, Measurable (U s) := fun s =>
    ((dev_measurable h s).mul ((drawSum_measurable _ _).comp (measurable_pi_apply (s + 1)))).ennreal_ofReal
  let W : (ℕ → Draws ℝ) → ENNReal := fun ω => ENNReal.ofReal κ * ∑' s, U s ω
  have hW : Measurable W := (Measurable.tsum hU).const_mul _
  have hmean : ∫⁻ ω, W ω ∂eachGen Spec.normalDraws ≤ ENNReal.ofReal (2 * q * p.size * κ * d) := by
    simp only [W]
    rw [lintegral_const_mul _ (Measurable.tsum hU), lintegral_tsum fun s => (hU s).aemeasurable]
    have : ∀ s, ∫⁻ ω, U s ω ∂eachGen Spec.normalDraws ≤
        ENNReal.ofReal (p.size * d) * ENNReal.ofReal (Real.sqrt (1 - 1 / q)) ^ s := by
      intro s
      refine (move_mean h s).trans (le_of_eq ?_)
      rw [← ENNReal.ofReal_pow (Real.sqrt_nonneg _), ← ENNReal.ofReal_mul (by positivity)]
      congr 1
      rw [← hd]; ring
    refine (mul_le_mul_right (ENNReal.tsum_le_tsum this) _).trans ?_
    rw [ENNReal.tsum_mul_left, ENNReal.tsum_geometric]
    refine (mul_le_mul_right (mul_le_mul_right (root_gap h.pos) _) _).trans (le_of_eq ?_)
    rw [← ENNReal.ofReal_mul (by positivity), ← ENNReal.ofReal_mul hκ]
    congr 1; ring
  have hsub : {ω | ∃ t, ∃ x ∈ (p.pops ω (t + 1)).1, R ≤ |x j - p.mu (p.sel (fun _ _ _ => 0) 0) j|} ⊆
      {ω | ENNReal.ofReal R ≤ W ω} := by
    rintro ω ⟨t, x, hx, hle⟩
    have e0 : p.sel (fun _ _ _ => 0) 0 = p.sel ω 0 := p.sel_past _ _ 0 fun i h1 h2 => by omega
    rw [e0] at hle
    have := hle.trans (sample_bound h ω t hx)
    simp only [Set.mem_ofPred_eq, W]
    refine (ENNReal.ofReal_le_ofReal this).trans ?_
    rw [ENNReal.ofReal_mul hκ, ENNReal.ofReal_sum_of_nonneg fun s _ =>
      mul_nonneg (dev_nonneg h ω s) (drawSum_nonneg _ _ _)]
    gcongr
    exact ENNReal.sum_le_tsum _
  refine (measure_mono hsub).trans ?_
  refine (meas_ge_le_lintegral_div hW.aemeasurable (by simpa using hR) ENNReal.ofReal_ne_top).trans ?_
  rw [ENNReal.ofReal_div_of_pos hR]
  gcongr

end PureRun

end Verif
