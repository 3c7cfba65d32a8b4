/-
The expected sample variance of a generation that `UniKDE` samples.
-/
import Verif.Lemmas.Slln
import Verif.Props.KedaAffine
import Verif.Props.Progress
import Mathlib.Probability.Moments.Variance

set_option linter.unusedSectionVars false

namespace Verif

open PyCost Spec MeasureTheory ProbabilityTheory

section sample
variable {Ω : Type} [MeasurableSpace Ω] {P : Measure Ω} [IsProbabilityMeasure P] {Y : ℕ → Ω → ℝ} {m : ℕ} {μ v : ℝ}

/-- The sample variance of uncorrelated numbers is unbiased. -/
theorem exp_sample_var (hm : 2 ≤ m) (h2 : ∀ i, MemLp (Y i) 2 P)
    (hind : Pairwise fun i j => IndepFun (Y i) (Y j) P) (hmean : ∀ i, ∫ ω, Y i ω ∂P = μ)
    (hvar : ∀ i, ProbabilityTheory.variance (Y i) P = v) :
    Integrable (fun ω => Spec.covariance ((List.range m).map fun i => Y i ω) ((List.range m).map fun i => Y i ω)) P ∧
    ∫ ω, Spec.covariance ((List.range m).map fun i => Y i ω) ((List.range m).map fun i => Y i ω) ∂P = v := by
  have hm0 : (m : ℝ) ≠ 0 := by exact_mod_cast (by omega : m ≠ 0)
  have hm1 : (m : ℝ) - 1 ≠ 0 := by
    have : (2 : ℝ) ≤ m := by exact_mod_cast hm
    linarith
  have hS : MemLp (∑ i ∈ Finset.range m, Y i) 2 P := memLp_finsetSum' _ fun i _ => h2 i
  have hsq : ∀ i, Integrable (fun ω => Y i ω * Y i ω) P := fun i => (h2 i).integrable_mul (h2 i)
  have hSq : Integrable (fun ω => (∑ i ∈ Finset.range m, Y i ω) * (∑ i ∈ Finset.range m, Y i ω)) P := by
    have := hS.integrable_mul hS
    refine this.congr (Filter.Eventually.of_forall fun ω => ?_)
    simp [Finset.sum_apply]
  have hEsq : ∀ i, ∫ ω, Y i ω * Y i ω ∂P = v + μ ^ 2 := by
    intro i
    have := variance_eq_sub (h2 i)
    rw [hvar i, hmean i] at this
    have h' : P[Y i ^ 2] = ∫ ω, Y i ω * Y i ω ∂P := integral_congr_ae (Filter.Eventually.of_forall fun ω => by
      simp [pow_two])
    rw [h'] at this
    linarith
  have hES : ∫ ω, ∑ i ∈ Finset.range m, Y i ω ∂P = m * μ := by
    rw [integral_finsetSum _ fun i _ => (h2 i).integrable (by norm_num)]
    simp [hmean]
  have hESq : ∫ ω, (∑ i ∈ Finset.range m, Y i ω) * (∑ i ∈ Finset.range m, Y i ω) ∂P = m * v + (m * μ) ^ 2 := by
    have h1 := variance_eq_sub hS
    have h3 := IndepFun.variance_sum (s := Finset.range m) (fun i _ => h2 i) (μ := P)
      (fun i _ j _ hij => hind hij)
    rw [h3] at h1
    simp only [hvar, Finset.sum_const, Finset.card_range, nsmul_eq_mul] at h1
    have e1 : P[(∑ i ∈ Finset.range m, Y i) ^ 2] =
        ∫ ω, (∑ i ∈ Finset.range m, Y i ω) * (∑ i ∈ Finset.range m, Y i ω) ∂P :=
      integral_congr_ae (Filter.Eventually.of_forall fun ω => by simp [pow_two, Finset.sum_apply])
    have e2 : P[∑ i ∈ Finset.range m, Y i] = m * μ := by
      rw [← hES]
      exact integral_congr_ae (Filter.Eventually.of_forall fun ω => by simp [Finset.sum_apply])
    rw [e1, e2] at h1
    linarith
  have hform : ∀ ω, Spec.covariance ((List.range m).map fun i => Y i ω) ((List.range m).map fun i => Y i ω) =
      ((∑ i ∈ Finset.range m, Y i ω * Y i ω) - (1 / m : ℝ) *
        ((∑ i ∈ Finset.range m, Y i ω) * (∑ i ∈ Finset.range m, Y i ω))) * (1 / (m - 1) : ℝ) := by
    intro ω
    rw [covariance_range (fun i => Y i ω) (fun i => Y i ω) (by omega)]
    field_simp
  simp only [hform]
  have hi := integrable_finsetSum (Finset.range m) fun i _ => hsq i
  refine ⟨(hi.sub (hSq.const_mul _)).mul_const _, ?_⟩
  rw [integral_mul_const, integral_sub hi (hSq.const_mul _), integral_const_mul, hESq,
    integral_finsetSum _ fun i _ => hsq i]
  simp only [hEsq, Finset.sum_const, Finset.card_range, nsmul_eq_mul]
  field_simp
  ring

end sample

section row
variable {n N : ℕ} (F : ℕ → ℝ) (c : ℕ → ℝ)

/-- The value of a linear function at one sampled individual. -/
noncomputable def kdeVal (n N : ℕ) (F c : ℕ → ℝ) (z : ℕ → ℝ) : ℝ :=
  F (pick N (z n)) + ∑ k ∈ Finset.range n, z k * c k

/-- What one draw adds to it. -/
noncomputable def kdeTerm (n N : ℕ) (F c : ℕ → ℝ) (j : ℕ) (x : ℝ) : ℝ :=
  if j < n then x * c j else F (pick N x)

theorem measurable_kdeTerm (j : ℕ) : Measurable (kdeTerm n N F c j) := by
  unfold kdeTerm
  split
  · fun_prop
  · exact (measurable_from_top (f := F)).comp (measurable_pick N)

theorem kdeVal_sum (z : ℕ → ℝ) : kdeVal n N F c z = ∑ j ∈ Finset.range (n + 1), kdeTerm n N F c j (z j) := by
  rw [Finset.sum_range_succ, add_comm]
  unfold kdeVal kdeTerm
  rw [if_neg (lt_irrefl n)]
  congr 1
  exact Finset.sum_congr rfl fun k hk => by rw [if_pos (Finset.mem_range.1 hk)]

theorem kdeVal_moments (hN : 0 < N) :
    MemLp (kdeVal n N F c) 2 (Measure.infinitePi (kdeLaw n)) ∧
    ProbabilityTheory.variance (kdeVal n N F c) (Measure.infinitePi (kdeLaw n)) =
      ((∑ k ∈ Finset.range N, F k * F k) / N - ((∑ k ∈ Finset.range N, F k) / N) ^ 2) +
        ∑ k ∈ Finset.range n, c k ^ 2 := by
  have hlawn : kdeLaw n n = unif01 := by rw [kdeLaw, if_neg (lt_irrefl n)]
  have hU : IsProbabilityMeasure unif01 := by rw [← hlawn]; infer_instance
  have hpick := fun G : ℕ → ℝ => integral_pick (P := unif01) hN (u := fun x => x) measurable_id HasLaw.id G
  have hlp : ∀ j, MemLp (kdeTerm n N F c j) 2 (kdeLaw n j) := by
    intro j
    by_cases hj : j < n
    · have : kdeTerm n N F c j = fun x => x * c j := by funext x; simp [kdeTerm, hj]
      rw [this, kdeLaw, if_pos hj]
      exact (memLp_id_gaussianReal 2).mul_const _
    · have : kdeTerm n N F c j = fun x => F (pick N x) := by funext x; simp [kdeTerm, hj]
      rw [this, kdeLaw, if_neg hj]
      rw [memLp_two_iff_integrable_sq (hpick F).1.aestronglyMeasurable]
      exact (hpick fun k => F k ^ 2).1
  have hmp := fun j => measurePreserving_eval_infinitePi (kdeLaw n) j
  have hlp' : ∀ j, MemLp (fun z : ℕ → ℝ => kdeTerm n N F c j (z j)) 2 (Measure.infinitePi (kdeLaw n)) := fun j =>
    (hlp j).comp_measurePreserving (hmp j)
  have hsum : kdeVal n N F c = ∑ j ∈ Finset.range (n + 1), fun z : ℕ → ℝ => kdeTerm n N F c j (z j) := by
    funext z
    rw [kdeVal_sum, Finset.sum_apply]
  have hind := iIndepFun_infinitePi (P := kdeLaw n) (X := kdeTerm n N F c) (measurable_kdeTerm F c)
  have hvar : ∀ j, ProbabilityTheory.variance (fun z : ℕ → ℝ => kdeTerm n N F c j (z j)) (Measure.infinitePi (kdeLaw n)) =
      ProbabilityTheory.variance (kdeTerm n N F c j) (kdeLaw n j) := fun j =>
    (hmp j).variance_fun_comp (hlp j).aemeasurable
  refine ⟨by rw [hsum]; exact memLp_finsetSum' _ fun j _ => hlp' j, ?_⟩
  rw [hsum, IndepFun.variance_sum (fun j _ => hlp' j) fun i _ j _ hij => hind.indepFun hij, Finset.sum_range_succ, add_comm]
  congr 1
  · rw [hvar]
    have : kdeTerm n N F c n = fun x => F (pick N x) := by funext x; simp [kdeTerm]
    rw [variance_eq_sub (hlp n), this, hlawn, (hpick F).2]
    congr 1
    rw [← (hpick fun k => F k * F k).2]
    exact integral_congr_ae (Filter.Eventually.of_forall fun x => by simp [pow_two])
  · refine Finset.sum_congr rfl fun k hk => ?_
    rw [hvar]
    have hk := Finset.mem_range.1 hk
    have : kdeTerm n N F c k = fun x => c k * x := by funext x; simp [kdeTerm, hk, mul_comm]
    rw [this, kdeLaw, if_pos hk, variance_const_mul, variance_fun_id_gaussianReal]
    simp

/-- The expected sample variance of a linear function in a generation of `m` individuals. -/
theorem kdeVal_spread (hN : 0 < N) {m : ℕ} (hm : 2 ≤ m) :
    Integrable (fun z : Draws ℝ => Spec.covariance ((List.range m).map fun i => kdeVal n N F c (z i))
      ((List.range m).map fun i => kdeVal n N F c (z i))) (drawsLaw (kdeLaw n)) ∧
    ∫ z : Draws ℝ, Spec.covariance ((List.range m).map fun i => kdeVal n N F c (z i))
      ((List.range m).map fun i => kdeVal n N F c (z i)) ∂drawsLaw (kdeLaw n) =
      ((∑ k ∈ Finset.range N, F k * F k) / N - ((∑ k ∈ Finset.range N, F k) / N) ^ 2) +
        ∑ k ∈ Finset.range n, c k ^ 2 := by
  obtain ⟨h2, hv⟩ := kdeVal_moments (n := n) F c hN
  have hmeas : Measurable (kdeVal n N F c) := by
    have : kdeVal n N F c = fun z => ∑ j ∈ Finset.range (n + 1), kdeTerm n N F c j (z j) := by
      funext z; exact kdeVal_sum F c z
    rw [this]
    exact Finset.measurable_sum _ fun j _ => (measurable_kdeTerm F c j).comp (measurable_pi_apply j)
  have hmp := fun i => measurePreserving_eval_infinitePi (fun _ : ℕ => Measure.infinitePi (kdeLaw n)) i
  have hind := iIndepFun_infinitePi (P := fun _ : ℕ => Measure.infinitePi (kdeLaw n)) (X := fun _ => kdeVal n N F c)
    fun _ => hmeas
  have hP : IsProbabilityMeasure (drawsLaw (kdeLaw n)) := by unfold drawsLaw; infer_instance
  refine exp_sample_var (P := drawsLaw (kdeLaw n)) (Y := fun i z => kdeVal n N F c (z i))
    (μ := ∫ z, kdeVal n N F c z ∂Measure.infinitePi (kdeLaw n)) hm
    (fun i => h2.comp_measurePreserving (hmp i)) (fun i j hij => hind.indepFun hij) (fun i => ?_) (fun i => ?_)
  · rw [← (hmp i).map_eq, integral_map (hmp i).measurable.aemeasurable hmeas.aestronglyMeasurable]
    rfl
  · rw [← hv]
    exact (hmp i).variance_fun_comp h2.aemeasurable

end row

end Verif
