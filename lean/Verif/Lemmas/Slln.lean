/-
Averages of independent draws: the strong law of large numbers for the draws of a sampler, and the limits of the
statistics of a growing sample.
-/
import Verif.Lemmas.Law
import Verif.Lemmas.Gaussian
import Verif.Spec.Stats
import Mathlib.Probability.StrongLaw

namespace Verif

open MeasureTheory ProbabilityTheory Spec Filter
open scoped Topology

section
variable {Ω : Type} [MeasurableSpace Ω] {P : Measure Ω} {law : ℕ → Measure ℝ} {U : Ω → Draws ℝ}

/-- The draws of one individual. -/
theorem measurable_drawRow (hU : IndepDraws P law U) (i : ℕ) : Measurable (fun ω => U ω i) :=
  measurable_pi_iff.2 fun j => hU.measurable i j

theorem drawRow_ident (hU : IndepDraws P law U) (i i' : ℕ) :
    IdentDistrib (fun ω => U ω i) (fun ω => U ω i') P P := by
  refine ⟨(measurable_drawRow hU i).aemeasurable, (measurable_drawRow hU i').aemeasurable, ?_⟩
  have h : ∀ i, P.map (fun ω => U ω i) = Measure.infinitePi (fun j => law j) := by
    intro i
    have := (hU.cells i).map_fun_eq_infinitePi_map (fun j => hU.measurable i j)
    rw [this]
    congr 1
    funext j
    exact (hU.law i j).map_eq
  rw [h, h]

/-- The average over the individuals of a quantity computed from their draws converges to its expectation. -/
theorem slln_row (hU : IndepDraws P law U) {f : (ℕ → ℝ) → ℝ} (hf : Measurable f)
    (hint : Integrable (fun ω => f (U ω 0)) P) :
    ∀ᵐ ω ∂P, Tendsto (fun N : ℕ => (∑ i ∈ Finset.range N, f (U ω i)) / N) atTop (𝓝 (∫ ω, f (U ω 0) ∂P)) := by
  refine strong_law_ae_real (fun i ω => f (U ω i)) hint ?_ ?_
  · intro i i' hii
    exact (hU.rows.indepFun hii).comp hf hf
  · intro i
    exact (drawRow_ident hU i 0).comp hf

/-- The same for a quantity computed from one draw. -/
theorem slln_cell (hU : IndepDraws P law U) (j : ℕ) {f : ℝ → ℝ} (hf : Measurable f)
    (hint : Integrable f (law j)) :
    ∀ᵐ ω ∂P, Tendsto (fun N : ℕ => (∑ i ∈ Finset.range N, f (U ω i j)) / N) atTop (𝓝 (∫ x, f x ∂law j)) := by
  have h1 : (∫ ω, f (U ω 0 j) ∂P) = ∫ x, f x ∂law j := by
    rw [← (hU.law 0 j).map_eq]
    exact (integral_map (hU.measurable 0 j).aemeasurable hf.aestronglyMeasurable).symm
  rw [← h1]
  refine slln_row hU (f := fun z => f (z j)) (hf.comp (measurable_pi_apply j)) ?_
  have : Integrable f (P.map (fun ω => U ω 0 j)) := by rw [(hU.law 0 j).map_eq]; exact hint
  exact this.comp_measurable (hU.measurable 0 j)

end

section normal
variable {Ω : Type} [MeasurableSpace Ω] {P : Measure Ω} {U : Ω → Draws ℝ}

theorem measurable_affine (n : ℕ) (m : ℝ) (a : ℕ → ℝ) : Measurable (affine n m a) := by
  unfold affine
  fun_prop

theorem integrable_affine (n : ℕ) (m : ℝ) (a : ℕ → ℝ) : Integrable (affine n m a) normalDraws := by
  unfold affine
  refine (integrable_const m).add (integrable_finsetSum _ fun k _ => ?_)
  exact (draw_integrable k).mul_const _

theorem integrable_affine_mul (n : ℕ) (m m' : ℝ) (a b : ℕ → ℝ) :
    Integrable (fun z => affine n m a z * affine n m' b z) normalDraws := by
  have h : ∀ m a, MemLp (affine n m a) 2 normalDraws := by
    intro m a
    unfold affine
    refine (memLp_const m).add (memLp_finsetSum _ fun k _ => ?_)
    simpa only [mul_comm] using (draw_memLp k).const_mul (a k)
  exact (h m a).integrable_mul (h m' b)

theorem integral_affine_mul (n : ℕ) (m m' : ℝ) (a b : ℕ → ℝ) :
    normalMean (fun z => affine n m a z * affine n m' b z) = m * m' + ∑ k ∈ Finset.range n, a k * b k := by
  have hE := normal_expectation n
  have hc := cov_affine hE m m' a b
  unfold Cov at hc
  rw [exp_affine hE, exp_affine hE] at hc
  have hsplit : (fun z => affine n m a z * affine n m' b z) =
      fun z => ((affine n m a z - m) * (affine n m' b z - m') + m' * affine n m a z) + (m * affine n m' b z + -(m * m')) := by
    funext z; ring
  have i1 := (integrable_affine n m a).const_mul m'
  have i2 := (integrable_affine n m' b).const_mul m
  have i0 : Integrable (fun z => (affine n m a z - m) * (affine n m' b z - m')) normalDraws := by
    have : (fun z => (affine n m a z - m) * (affine n m' b z - m')) =
        fun z => affine n 0 a z * affine n 0 b z := by
      funext z; unfold affine; ring
    rw [this]
    exact integrable_affine_mul n 0 0 a b
  have e1 := exp_affine hE m a
  have e2 := exp_affine hE m' b
  unfold normalMean at hc e1 e2 ⊢
  have j1 : Integrable (fun z => (affine n m a z - m) * (affine n m' b z - m') + m' * affine n m a z) normalDraws :=
    i0.add i1
  have j2 : Integrable (fun z => m * affine n m' b z + -(m * m')) normalDraws := i2.add (integrable_const _)
  rw [hsplit, integral_add j1 j2, integral_add i0 i1, integral_add i2 (integrable_const _), hc,
    integral_const_mul, integral_const_mul, e1, e2]
  simp
  ring

theorem slln_normal (hU : IndepDraws P (fun _ => gaussianReal 0 1) U) {f : (ℕ → ℝ) → ℝ} (hf : Measurable f)
    (hint : Integrable f normalDraws) :
    ∀ᵐ ω ∂P, Tendsto (fun N : ℕ => (∑ i ∈ Finset.range N, f (U ω i)) / N) atTop (𝓝 (normalMean f)) := by
  have hmap : P.map (fun ω => U ω 0) = normalDraws := by
    have := (hU.cells 0).map_fun_eq_infinitePi_map (fun j => hU.measurable 0 j)
    rw [this]
    unfold normalDraws
    congr 1
    funext j
    exact (hU.law 0 j).map_eq
  have hi : (∫ ω, f (U ω 0) ∂P) = normalMean f := by
    unfold normalMean
    rw [← hmap]
    exact (integral_map (measurable_drawRow hU 0).aemeasurable hf.aestronglyMeasurable).symm
  rw [← hi]
  refine slln_row hU hf ?_
  rw [← hmap] at hint
  exact hint.comp_measurable (measurable_drawRow hU 0)

theorem slln_affine (hU : IndepDraws P (fun _ => gaussianReal 0 1) U) (n : ℕ) (m : ℝ) (a : ℕ → ℝ) :
    ∀ᵐ ω ∂P, Tendsto (fun N : ℕ => (∑ i ∈ Finset.range N, affine n m a (U ω i)) / N) atTop (𝓝 m) := by
  have := slln_normal hU (measurable_affine n m a) (integrable_affine n m a)
  rwa [exp_affine (normal_expectation n)] at this

theorem slln_affine_mul (hU : IndepDraws P (fun _ => gaussianReal 0 1) U) (n : ℕ) (m m' : ℝ) (a b : ℕ → ℝ) :
    ∀ᵐ ω ∂P, Tendsto (fun N : ℕ => (∑ i ∈ Finset.range N, affine n m a (U ω i) * affine n m' b (U ω i)) / N) atTop
      (𝓝 (m * m' + ∑ k ∈ Finset.range n, a k * b k)) := by
  have := slln_normal hU (f := fun z => affine n m a z * affine n m' b z)
    ((measurable_affine n m a).mul (measurable_affine n m' b)) (integrable_affine_mul n m m' a b)
  rwa [integral_affine_mul] at this

end normal

section stats

theorem sum_range_map (g : ℕ → ℝ) (N : ℕ) : ((List.range N).map g).sum = ∑ i ∈ Finset.range N, g i := by
  induction N with
  | zero => simp
  | succ n ih => rw [List.range_succ, List.map_append, List.sum_append, ih, Finset.sum_range_succ]; simp

theorem mean_map_range (g : ℕ → ℝ) (N : ℕ) :
    mean ((List.range N).map g) = (∑ i ∈ Finset.range N, g i) / N := by
  unfold mean
  rw [List.length_map, List.length_range, sum_range_map]

theorem variance_range (g : ℕ → ℝ) {N : ℕ} (hN : N ≠ 0) :
    Spec.variance ((List.range N).map g) =
      (∑ i ∈ Finset.range N, g i ^ 2) / N - ((∑ i ∈ Finset.range N, g i) / N) ^ 2 := by
  have hN' : (N : ℝ) ≠ 0 := by exact_mod_cast hN
  unfold Spec.variance
  rw [List.map_map, mean_map_range]
  have : ((fun x => (x - mean ((List.range N).map g)) ^ 2) ∘ g) =
      fun i => (g i - (∑ i ∈ Finset.range N, g i) / N) ^ 2 := by
    funext i
    simp only [Function.comp, mean_map_range]
  rw [this]
  set m := (∑ i ∈ Finset.range N, g i) / N with hm
  have hs : ∑ i ∈ Finset.range N, g i = N * m := by rw [hm]; field_simp
  have : ∑ i ∈ Finset.range N, (g i - m) ^ 2 = ∑ i ∈ Finset.range N, g i ^ 2 - N * m ^ 2 := by
    have : ∀ i, (g i - m) ^ 2 = g i ^ 2 - 2 * m * g i + m ^ 2 := fun i => by ring
    simp only [this]
    rw [Finset.sum_add_distrib, Finset.sum_sub_distrib, ← Finset.mul_sum, hs, Finset.sum_const, Finset.card_range,
      nsmul_eq_mul]
    ring
  rw [this]
  field_simp

theorem covariance_range (g h : ℕ → ℝ) {N : ℕ} (hN : N ≠ 0) :
    Spec.covariance ((List.range N).map g) ((List.range N).map h) =
      ((∑ i ∈ Finset.range N, g i * h i) / N -
        (∑ i ∈ Finset.range N, g i) / N * ((∑ i ∈ Finset.range N, h i) / N)) * (N / (N - 1)) := by
  have hN' : (N : ℝ) ≠ 0 := by exact_mod_cast hN
  unfold Spec.covariance
  rw [mean_map_range, mean_map_range, List.zipWith_map, List.length_map, List.length_range]
  have hz : List.zipWith (fun a b => (g a - (∑ i ∈ Finset.range N, g i) / N) * (h b - (∑ i ∈ Finset.range N, h i) / N))
      (List.range N) (List.range N) =
      (List.range N).map (fun i => (g i - (∑ i ∈ Finset.range N, g i) / N) * (h i - (∑ i ∈ Finset.range N, h i) / N)) := by
    rw [List.zipWith_self]
  rw [hz, sum_range_map]
  set m := (∑ i ∈ Finset.range N, g i) / N with hm
  set k := (∑ i ∈ Finset.range N, h i) / N with hk
  have hs : ∑ i ∈ Finset.range N, g i = N * m := by rw [hm]; field_simp
  have hs' : ∑ i ∈ Finset.range N, h i = N * k := by rw [hk]; field_simp
  have : ∑ i ∈ Finset.range N, (g i - m) * (h i - k) = ∑ i ∈ Finset.range N, g i * h i - N * (m * k) := by
    have : ∀ i, (g i - m) * (h i - k) = g i * h i - k * g i - m * h i + m * k := fun i => by ring
    simp only [this]
    rw [Finset.sum_add_distrib, Finset.sum_sub_distrib, Finset.sum_sub_distrib, ← Finset.mul_sum, ← Finset.mul_sum, hs,
      hs', Finset.sum_const, Finset.card_range, nsmul_eq_mul]
    ring
  rw [this]
  rcases eq_or_ne ((N : ℝ) - 1) 0 with h1 | h1
  · rw [h1]; simp
  · field_simp

/-- The statistics of a growing sample. -/
theorem tendsto_variance {g : ℕ → ℝ} {m v : ℝ}
    (h1 : Tendsto (fun N : ℕ => (∑ i ∈ Finset.range N, g i) / N) atTop (𝓝 m))
    (h2 : Tendsto (fun N : ℕ => (∑ i ∈ Finset.range N, g i * g i) / N) atTop (𝓝 (m * m + v))) :
    Tendsto (fun N : ℕ => Spec.variance ((List.range N).map g)) atTop (𝓝 v) := by
  have h := h2.sub (h1.pow 2)
  have e : m * m + v - m ^ 2 = v := by ring
  rw [e] at h
  refine h.congr' ?_
  filter_upwards [eventually_ne_atTop 0] with N hN
  rw [variance_range g hN]
  simp only [pow_two]

/-- `N / (N - 1)` tends to 1. -/
theorem tendsto_bessel : Tendsto (fun N : ℕ => (N : ℝ) / (N - 1)) atTop (𝓝 1) := by
  have h := tendsto_natCast_div_add_atTop (𝕜 := ℝ) (-1 : ℝ)
  simpa [sub_eq_add_neg] using h

theorem tendsto_covariance {g h : ℕ → ℝ} {m m' v : ℝ}
    (h1 : Tendsto (fun N : ℕ => (∑ i ∈ Finset.range N, g i) / N) atTop (𝓝 m))
    (h1' : Tendsto (fun N : ℕ => (∑ i ∈ Finset.range N, h i) / N) atTop (𝓝 m'))
    (h2 : Tendsto (fun N : ℕ => (∑ i ∈ Finset.range N, g i * h i) / N) atTop (𝓝 (m * m' + v))) :
    Tendsto (fun N : ℕ => Spec.covariance ((List.range N).map g) ((List.range N).map h)) atTop (𝓝 v) := by
  have hh := (h2.sub (h1.mul h1')).mul tendsto_bessel
  have e : (m * m' + v - m * m') * 1 = v := by ring
  rw [e] at hh
  refine hh.congr' ?_
  filter_upwards [eventually_ne_atTop 0] with N hN
  rw [covariance_range g h hN]

end stats

end Verif
