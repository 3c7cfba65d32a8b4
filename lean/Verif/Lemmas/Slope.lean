/-
The spread of the lowest of several independent draws: moments of the normal distribution cut off from above,
and of a normal number of which another one, correlated with it, is cut off.
-/
import Verif.Lemmas.Slln
import Mathlib.Probability.Distributions.Gaussian.Real
import Mathlib.Probability.Distributions.Gaussian.HasGaussianLaw.Independence
import Mathlib.Probability.Independence.InfinitePi
import Mathlib.Probability.Independence.Integration
import Mathlib.MeasureTheory.Integral.IntegralEqImproper
import Mathlib.MeasureTheory.Integral.Marginal

set_option linter.unusedSectionVars false

namespace Verif

open MeasureTheory ProbabilityTheory Filter Topology

/-! ### The standard normal distribution below `c` -/

theorem pdf_deriv (x : ℝ) : HasDerivAt (gaussianPDFReal 0 1) (-x * gaussianPDFReal 0 1 x) x := by
  have e1 : gaussianPDFReal 0 1 = fun x => (√(2 * Real.pi * 1))⁻¹ * Real.exp (-(x - 0) ^ 2 / (2 * 1)) := by
    funext x; simp [gaussianPDFReal]
  have h1 : HasDerivAt (fun x : ℝ => -(x - 0) ^ 2 / (2 * 1)) (-x) x := by
    have := (((hasDerivAt_id' x).sub_const 0).fun_pow 2).fun_neg.div_const (2 * 1)
    exact this.congr_deriv (by norm_num; ring)
  have := h1.exp.const_mul (√(2 * Real.pi * 1))⁻¹
  rw [e1]
  exact this.congr_deriv (by ring)

theorem sq_gauss : Integrable (fun x : ℝ => x ^ 2) (gaussianReal 0 1) := (memLp_id_gaussianReal 2).integrable_sq

theorem id_gauss : Integrable (fun x : ℝ => x) (gaussianReal 0 1) :=
  (memLp_id_gaussianReal (μ := 0) (v := 1) 1).integrable le_rfl

theorem pdf_integrable {f : ℝ → ℝ} (h : Integrable f (gaussianReal 0 1)) :
    Integrable fun x => gaussianPDFReal 0 1 x * f x := by
  rw [gaussianReal_of_var_ne_zero _ (by norm_num)] at h
  rw [integrable_withDensity_iff_integrable_smul' (measurable_gaussianPDF 0 1)
    (Eventually.of_forall fun _ => ENNReal.ofReal_lt_top)] at h
  refine h.congr (Eventually.of_forall fun x => ?_)
  simp [gaussianPDF, gaussianPDFReal_nonneg, ENNReal.toReal_ofReal]

theorem pdf_lim : Tendsto (gaussianPDFReal 0 1) atBot (𝓝 0) ∧
    Tendsto (fun x => x * gaussianPDFReal 0 1 x) atBot (𝓝 0) := by
  constructor
  · refine tendsto_zero_of_hasDerivAt_of_integrableOn_Iic (a := 0) (fun x _ => pdf_deriv x) ?_ ?_
    · exact ((pdf_integrable id_gauss).neg.congr (Eventually.of_forall fun x => by simp; ring)).integrableOn
    · exact ((pdf_integrable (integrable_const 1)).congr (Eventually.of_forall fun x => by simp)).integrableOn
  · refine tendsto_zero_of_hasDerivAt_of_integrableOn_Iic (a := 0)
      (f' := fun x => gaussianPDFReal 0 1 x * (1 - x ^ 2)) (fun x _ => ?_) ?_ ?_
    · exact ((hasDerivAt_id' x).fun_mul (pdf_deriv x)).congr_deriv (by ring)
    · exact (pdf_integrable ((integrable_const 1).sub sq_gauss)).integrableOn
    · exact ((pdf_integrable id_gauss).congr (Eventually.of_forall fun x => by simp; ring)).integrableOn

theorem cut_integral (c : ℝ) (f : ℝ → ℝ) :
    ∫ x in Set.Iic c, f x ∂gaussianReal 0 1 = ∫ x in Set.Iic c, gaussianPDFReal 0 1 x * f x := by
  rw [← integral_indicator measurableSet_Iic, integral_gaussianReal_eq_integral_smul (by norm_num),
    ← integral_indicator measurableSet_Iic]
  refine integral_congr_ae (Eventually.of_forall fun x => ?_)
  by_cases hx : x ∈ Set.Iic c
  · simp only [Set.indicator_of_mem hx, smul_eq_mul]
  · simp only [Set.indicator_of_notMem hx, smul_zero]

theorem cut_first (c : ℝ) : ∫ x in Set.Iic c, x ∂gaussianReal 0 1 = - gaussianPDFReal 0 1 c := by
  rw [cut_integral]
  have := integral_Iic_of_hasDerivAt_of_tendsto' (a := c) (m := 0) (f := fun x => - gaussianPDFReal 0 1 x)
    (f' := fun x => gaussianPDFReal 0 1 x * x)
    (fun x _ => (pdf_deriv x).fun_neg.congr_deriv (by ring))
    (pdf_integrable id_gauss).integrableOn (by simpa using pdf_lim.1.neg)
  rw [this]; ring

theorem cut_second (c : ℝ) : ∫ x in Set.Iic c, x ^ 2 ∂gaussianReal 0 1 =
    ∫ _ in Set.Iic c, (1 : ℝ) ∂gaussianReal 0 1 + c * ∫ x in Set.Iic c, x ∂gaussianReal 0 1 := by
  have h2 : Integrable (fun x : ℝ => x ^ 2 - c * x) (gaussianReal 0 1) := sq_gauss.sub (id_gauss.const_mul c)
  have hi : Integrable (fun x : ℝ => x ^ 2 - c * x - 1) (gaussianReal 0 1) := h2.sub (integrable_const 1)
  have h0 : ∫ x in Set.Iic c, (x ^ 2 - c * x - 1) ∂gaussianReal 0 1 = 0 := by
    rw [cut_integral]
    have := integral_Iic_of_hasDerivAt_of_tendsto' (a := c) (m := 0) (f := fun x => (c - x) * gaussianPDFReal 0 1 x)
      (f' := fun x => gaussianPDFReal 0 1 x * (x ^ 2 - c * x - 1))
      (fun x _ => (((hasDerivAt_id' x).const_sub c).fun_mul (pdf_deriv x)).congr_deriv (by ring))
      (pdf_integrable hi).integrableOn
      (by
        have := (pdf_lim.1.const_mul c).sub pdf_lim.2
        simp only [mul_zero, sub_zero] at this
        refine this.congr fun x => by ring)
    rw [this]; ring
  rw [integral_sub h2.integrableOn (integrable_const 1).integrableOn,
    integral_sub sq_gauss.integrableOn (id_gauss.const_mul c).integrableOn, integral_const_mul] at h0
  linarith

/-- The normal distribution cut off at `c` has a variance of at most 1. -/
theorem cut_variance (c : ℝ) : (∫ x in Set.Iic c, x ^ 2 ∂gaussianReal 0 1) * (gaussianReal 0 1).real (Set.Iic c) -
    (∫ x in Set.Iic c, x ∂gaussianReal 0 1) ^ 2 ≤ (gaussianReal 0 1).real (Set.Iic c) ^ 2 := by
  have h1 := cut_second c
  have h2 : ∫ _ in Set.Iic c, (1 : ℝ) ∂gaussianReal 0 1 = (gaussianReal 0 1).real (Set.Iic c) := by simp
  have h3 : ∫ x in Set.Iic c, x ∂gaussianReal 0 1 ≤ 0 := by
    rw [cut_first]; linarith [gaussianPDFReal_nonneg 0 1 c]
  have h4 : ∫ x in Set.Iic c, x ∂gaussianReal 0 1 ≤ c * (gaussianReal 0 1).real (Set.Iic c) := by
    have := setIntegral_mono_on (μ := gaussianReal 0 1) (f := fun x : ℝ => x) (g := fun _ => c) (s := Set.Iic c)
      id_gauss.integrableOn (integrable_const c).integrableOn measurableSet_Iic (fun x hx => hx)
    simpa [mul_comm] using this
  rw [h1, h2]
  nlinarith [mul_nonneg (neg_nonneg.2 h3) (sub_nonneg.2 h4)]

/-! ### A draw, given that a linear function of the draws is below `c` -/

section half
variable {n : ℕ} {b : ℕ → ℝ}

theorem draws_gaussian (n : ℕ) (a b : ℕ → ℝ) :
    HasGaussianLaw (fun z => (affine n 0 a z, affine n 0 b z)) normalDraws := by
  have hI : iIndepFun (fun (k : ℕ) (z : ℕ → ℝ) => z k) normalDraws :=
    iIndepFun_infinitePi (P := fun _ : ℕ => gaussianReal 0 1) (X := fun _ v => v) (fun _ => measurable_id)
  have h : HasGaussianLaw (fun (z : ℕ → ℝ) (k : Fin n) => z k) normalDraws := by
    refine iIndepFun.hasGaussianLaw (X := fun (k : Fin n) (z : ℕ → ℝ) => z k) (fun k => ?_)
      (hI.precomp (g := fun k : Fin n => (k : ℕ)) Fin.val_injective)
    have : IsGaussian (normalDraws.map fun z : ℕ → ℝ => z k) := by rw [(draw_law k).map_eq]; infer_instance
    exact IsGaussian.hasGaussianLaw
  let L : (ℕ → ℝ) → (Fin n → ℝ) →L[ℝ] ℝ := fun a => ∑ k : Fin n, a k • ContinuousLinearMap.proj k
  have hL : ∀ a (z : ℕ → ℝ), L a (fun k : Fin n => z k) = affine n 0 a z := by
    intro a z
    unfold affine
    rw [← Fin.sum_univ_eq_sum_range (fun k => z k * a k)]
    simp [L, mul_comm]
  have := h.map_fun ((L a).prod (L b))
  simpa [hL] using this

theorem affine_law (n : ℕ) (hb : ∑ k ∈ Finset.range n, b k ^ 2 = 1) :
    MeasurePreserving (affine n 0 b) normalDraws (gaussianReal 0 1) := by
  refine ⟨measurable_affine n 0 b, ?_⟩
  rw [(draws_gaussian n b b).fst.map_eq_gaussianReal]
  have h1 : ∫ z, affine n 0 b z ∂normalDraws = 0 := exp_affine (normal_expectation n) 0 b
  have h2 : Var[affine n 0 b; normalDraws] = 1 := by
    rw [variance_eq_sub (draws_gaussian n b b).fst.memLp_two, h1]
    have := integral_affine_mul n 0 0 b b
    unfold normalMean at this
    simp only [Pi.pow_apply, pow_two] at hb ⊢
    rw [this, hb]; ring
  rw [h1, h2]
  simp

theorem affine_indep (n : ℕ) (a b : ℕ → ℝ) (h : ∑ k ∈ Finset.range n, a k * b k = 0) :
    IndepFun (affine n 0 a) (affine n 0 b) normalDraws := by
  refine (draws_gaussian n a b).indepFun_of_covariance_eq_zero ?_
  have h1 : ∀ b, ∫ z, affine n 0 b z ∂normalDraws = 0 := fun b => exp_affine (normal_expectation n) 0 b
  rw [covariance_eq_sub (draws_gaussian n a b).fst.memLp_two (draws_gaussian n a b).snd.memLp_two, h1 a, h1 b]
  have := integral_affine_mul n 0 0 a b
  unfold normalMean at this
  simp only [Pi.mul_apply]
  rw [this, h]; ring

/-- A draw has a variance of at most 1 also in a half space. -/
theorem half_space (hb : ∑ k ∈ Finset.range n, b k ^ 2 = 1) {j : ℕ} (hj : j < n) (c : ℝ) :
    (∫ z in {z | affine n 0 b z ≤ c}, z j ^ 2 ∂normalDraws) * normalDraws.real {z | affine n 0 b z ≤ c} -
      (∫ z in {z | affine n 0 b z ≤ c}, z j ∂normalDraws) ^ 2 ≤ normalDraws.real {z | affine n 0 b z ≤ c} ^ 2 := by
  set w : ℕ → ℝ := fun k => (if k = j then 1 else 0) - b j * b k with hw
  have hU := affine_law n hb
  have hind : IndepFun (affine n 0 b) (affine n 0 w) normalDraws := by
    refine affine_indep n b w ?_
    have : ∀ k, b k * w k = (if k = j then b j else 0) - b j * b k ^ 2 := by
      intro k; simp only [hw]; split
      · rename_i h; subst h; ring
      · ring
    simp only [this, Finset.sum_sub_distrib, ← Finset.mul_sum, hb]
    rw [Finset.sum_ite_eq' (Finset.range n) j]
    simp [hj]
  have hZ : ∀ z, z j = b j * affine n 0 b z + affine n 0 w z := by
    intro z
    unfold affine
    simp only [hw, zero_add, mul_sub, Finset.sum_sub_distrib, mul_ite, mul_one, mul_zero]
    rw [Finset.sum_ite_eq' (Finset.range n) j, if_pos (Finset.mem_range.2 hj), Finset.mul_sum]
    have : ∀ k, z k * (b j * b k) = b j * (z k * b k) := fun k => by ring
    simp only [this]
    ring
  have hW1 : ∫ z, affine n 0 w z ∂normalDraws = 0 := exp_affine (normal_expectation n) 0 w
  have hW2 : ∫ z, affine n 0 w z ^ 2 ∂normalDraws = 1 - b j ^ 2 := by
    have := integral_affine_mul n 0 0 w w
    unfold normalMean at this
    simp only [pow_two] at hb ⊢
    rw [this]
    have : ∀ k, w k * w k = (if k = j then 1 - 2 * (b j * b j) else 0) + b j * b j * (b k * b k) := by
      intro k; simp only [hw]; split
      · rename_i h; subst h; ring
      · ring
    simp only [this, Finset.sum_add_distrib, ← Finset.mul_sum, hb]
    rw [Finset.sum_ite_eq' (Finset.range n) j, if_pos (Finset.mem_range.2 hj)]
    ring
  have hm : MeasurableSet {z : ℕ → ℝ | affine n 0 b z ≤ c} := measurableSet_le (measurable_affine n 0 b) measurable_const
  have hpre : {z : ℕ → ℝ | affine n 0 b z ≤ c} = affine n 0 b ⁻¹' Set.Iic c := rfl
  have hP0 : normalDraws.real {z | affine n 0 b z ≤ c} = (gaussianReal 0 1).real (Set.Iic c) := by
    rw [hpre, measureReal_def, measureReal_def, hU.measure_preimage measurableSet_Iic.nullMeasurableSet]
  have key : ∀ (f h : ℝ → ℝ), Measurable f → Measurable h → Integrable f (gaussianReal 0 1) →
      Integrable (fun z => h (affine n 0 w z)) normalDraws →
      Integrable (fun z => f (affine n 0 b z) * h (affine n 0 w z)) normalDraws ∧
      ∫ z in {z | affine n 0 b z ≤ c}, f (affine n 0 b z) * h (affine n 0 w z) ∂normalDraws =
        (∫ x in Set.Iic c, f x ∂gaussianReal 0 1) * ∫ z, h (affine n 0 w z) ∂normalDraws := by
    intro f h hf hh hif hih
    have i1 : Integrable (fun z => f (affine n 0 b z)) normalDraws :=
      hU.integrable_comp_of_integrable hif
    refine ⟨(hind.comp hf hh).integrable_mul i1 hih, ?_⟩
    rw [← integral_indicator hm]
    have e1 : ∀ z, Set.indicator {z | affine n 0 b z ≤ c} (fun z => f (affine n 0 b z) * h (affine n 0 w z)) z =
        (Set.Iic c).indicator f (affine n 0 b z) * h (affine n 0 w z) := by
      intro z
      by_cases hz : affine n 0 b z ≤ c
      · rw [Set.indicator_of_mem (show z ∈ {z | affine n 0 b z ≤ c} from hz), Set.indicator_of_mem (show _ ∈ Set.Iic c from hz)]
      · rw [Set.indicator_of_notMem (show z ∉ {z | affine n 0 b z ≤ c} from hz), Set.indicator_of_notMem (show _ ∉ Set.Iic c from hz),
          zero_mul]
    simp only [e1]
    have hfi : Measurable ((Set.Iic c).indicator f) := hf.indicator measurableSet_Iic
    have := (hind.comp hfi hh).integral_fun_mul_eq_mul_integral
      (hfi.comp (measurable_affine n 0 b)).aestronglyMeasurable (hh.comp (measurable_affine n 0 w)).aestronglyMeasurable
    simp only [Function.comp] at this
    rw [this, ← integral_indicator measurableSet_Iic, ← hU.map_eq,
      integral_map hU.measurable.aemeasurable hfi.aestronglyMeasurable]
  have w1 := integrable_affine n 0 w
  have w2 : Integrable (fun z => affine n 0 w z ^ 2) normalDraws := (draws_gaussian n w w).fst.memLp_two.integrable_sq
  have k0 := key (fun x => x) (fun _ => 1) measurable_id measurable_const id_gauss (integrable_const 1)
  have k1 := key (fun _ => 1) (fun y => y) measurable_const measurable_id (integrable_const 1) w1
  have k2 := key (fun x => x ^ 2) (fun _ => 1) (by fun_prop) measurable_const sq_gauss (integrable_const 1)
  have k3 := key (fun x => x) (fun y => y) measurable_id measurable_id id_gauss w1
  have k4 := key (fun _ => 1) (fun y => y ^ 2) measurable_const (by fun_prop) (integrable_const 1) w2
  simp only [mul_one, one_mul, integral_const, probReal_univ, smul_eq_mul, hW1, hW2, mul_zero] at k0 k1 k2 k3 k4
  have e1 : ∫ z in {z | affine n 0 b z ≤ c}, z j ∂normalDraws = b j * ∫ x in Set.Iic c, x ∂gaussianReal 0 1 := by
    rw [setIntegral_congr_fun hm fun z _ => hZ z, integral_add (k0.1.const_mul _).integrableOn k1.1.integrableOn, integral_const_mul, k0.2, k1.2]
    ring
  have e2 : ∫ z in {z | affine n 0 b z ≤ c}, z j ^ 2 ∂normalDraws =
      b j ^ 2 * ∫ x in Set.Iic c, x ^ 2 ∂gaussianReal 0 1 + (1 - b j ^ 2) * (gaussianReal 0 1).real (Set.Iic c) := by
    have : ∀ z : ℕ → ℝ, z j ^ 2 = (b j ^ 2 * affine n 0 b z ^ 2 + 2 * b j * (affine n 0 b z * affine n 0 w z)) +
        affine n 0 w z ^ 2 := by intro z; rw [hZ z]; ring
    rw [setIntegral_congr_fun hm fun z _ => this z]
    have i1 : Integrable (fun z => b j ^ 2 * affine n 0 b z ^ 2 + 2 * b j * (affine n 0 b z * affine n 0 w z)) normalDraws :=
      (k2.1.const_mul _).add (k3.1.const_mul _)
    rw [integral_add i1.integrableOn k4.1.integrableOn,
      integral_add (k2.1.const_mul _).integrableOn (k3.1.const_mul _).integrableOn, integral_const_mul, integral_const_mul,
      k2.2, k3.2, k4.2]
    simp
    ring
  rw [e1, e2, hP0]
  have h := cut_variance c
  nlinarith [mul_le_mul_of_nonneg_left h (sq_nonneg (b j))]

end half

end Verif
