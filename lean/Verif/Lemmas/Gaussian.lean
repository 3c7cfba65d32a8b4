/- Independent standard normal draws satisfy `Spec.Expectation`: the integral with respect to the
product of countably many standard Gaussian measures. -/
import Verif.Spec.Moments
import Mathlib.Probability.Distributions.Gaussian.Real
import Mathlib.Probability.Independence.InfinitePi

namespace Verif

open MeasureTheory ProbabilityTheory Spec

/-- The law of a sequence of independent standard normal draws. -/
noncomputable def normalDraws : Measure (ℕ → ℝ) :=
  Measure.infinitePi (fun _ : ℕ => gaussianReal 0 1)

instance : IsProbabilityMeasure normalDraws := by unfold normalDraws; infer_instance

/-- Expectation over independent standard normal draws. -/
noncomputable def normalMean (f : (ℕ → ℝ) → ℝ) : ℝ := ∫ z, f z ∂normalDraws

theorem draw_law (k : ℕ) : MeasurePreserving (fun z : ℕ → ℝ => z k) normalDraws (gaussianReal 0 1) :=
  measurePreserving_eval_infinitePi (fun _ : ℕ => gaussianReal 0 1) k

theorem draw_memLp (k : ℕ) : MemLp (fun z : ℕ → ℝ => z k) 2 normalDraws := by
  have h := memLp_id_gaussianReal (μ := 0) (v := 1) 2
  exact h.comp_measurePreserving (draw_law k)

theorem draw_integrable (k : ℕ) : Integrable (fun z : ℕ → ℝ => z k) normalDraws :=
  (draw_memLp k).integrable (by norm_num)

/-- Integrals over one draw. -/
theorem draw_integral (k : ℕ) {f : ℝ → ℝ} (hf : Continuous f) :
    ∫ z, f (z k) ∂normalDraws = ∫ x, f x ∂gaussianReal 0 1 := by
  rw [← (draw_law k).map_eq, integral_map (draw_law k).measurable.aemeasurable
    hf.aestronglyMeasurable]

theorem draw_mean (k : ℕ) : ∫ z, z k ∂normalDraws = 0 := by
  rw [draw_integral k (f := fun x => x) continuous_id, integral_id_gaussianReal]

theorem normal_expectation (n : ℕ) :
    Expectation n (fun f => Integrable f normalDraws) normalMean where
  domAdd := fun f g hf hg => hf.add hg
  domSmul := fun c f hf => hf.const_mul c
  domOne := integrable_const 1
  domDraw := fun k _ => draw_integrable k
  domMul := fun k _ l _ => (draw_memLp k).integrable_mul (draw_memLp l)
  add := fun f g hf hg => integral_add hf hg
  smul := fun c f _ => integral_const_mul c f
  one := by unfold normalMean; simp
  mean := fun k _ => draw_mean k
  var := by
    intro k _
    unfold normalMean
    rw [draw_integral k (f := fun x => x * x) (by fun_prop)]
    have h := variance_id_gaussianReal (μ := 0) (v := 1)
    rw [variance_eq_sub (memLp_id_gaussianReal 2)] at h
    simpa [pow_two, integral_id_gaussianReal] using h
  uncorrelated := by
    intro k _ l _ hkl
    have hi : IndepFun (fun z : ℕ → ℝ => z k) (fun z : ℕ → ℝ => z l) normalDraws :=
      (iIndepFun_infinitePi (P := fun _ : ℕ => gaussianReal 0 1) (X := fun _ x => x)
        (by fun_prop)).indepFun hkl
    have := hi.integral_fun_mul_eq_mul_integral (draw_integrable k).1 (draw_integrable l).1
    unfold normalMean
    rw [this, draw_mean, zero_mul]

end Verif
