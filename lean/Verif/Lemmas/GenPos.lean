/-
Points drawn from continuous distributions are in general position.
-/
import Verif.Props.EmnaSpread
import Verif.Props.Kde
import Mathlib.MeasureTheory.Measure.Haar.Disintegration
import Mathlib.LinearAlgebra.Matrix.Charpoly.Coeff
import Mathlib.Topology.Instances.Matrix

set_option linter.unusedSectionVars false

namespace Verif

open MeasureTheory ProbabilityTheory Spec Matrix

namespace Spec

/-- The `n + 1` points do not lie in a common hyperplane. -/
def GeneralPosition {n : ℕ} (y : Fin (n + 1) → Fin n → ℝ) : Prop :=
  ∀ v : Fin n → ℝ, ∀ c : ℝ, (∀ a, ∑ j, v j * y a j = c) → v = 0

end Spec

section volume
variable {n : ℕ}

/-- The edges from the first point. -/
def edges (y : Fin (n + 1) → Fin n → ℝ) : Matrix (Fin n) (Fin n) ℝ := fun a j => y a.succ j - y 0 j

theorem genPos_of_det {y : Fin (n + 1) → Fin n → ℝ} (h : (edges y).det ≠ 0) : GeneralPosition y := by
  intro v c hv
  refine eq_zero_of_mulVec_eq_zero h ?_
  ext a
  simp only [mulVec, dotProduct, edges, Pi.zero_apply]
  have : ∑ j, (y a.succ j - y 0 j) * v j = ∑ j, v j * y a.succ j - ∑ j, v j * y 0 j := by
    rw [← Finset.sum_sub_distrib]
    exact Finset.sum_congr rfl fun j _ => by ring
  rw [this, hv, hv, sub_self]

theorem genPos_ae (n : ℕ) : ∀ᵐ y : Fin (n + 1) → Fin n → ℝ, GeneralPosition y := by
  have hcont : Continuous fun y : Fin (n + 1) → Fin n → ℝ => (edges y).det := by
    refine Continuous.matrix_det (continuous_pi fun a => continuous_pi fun j => ?_)
    unfold edges
    fun_prop
  have hm : MeasurableSet {y : Fin (n + 1) → Fin n → ℝ | (edges y).det ≠ 0} :=
    (isOpen_ne_fun hcont continuous_const).measurableSet
  let p : Fin (n + 1) → Fin n → ℝ := fun a j => if a = j.succ then 1 else 0
  have key := ae_mem_of_ae_add_linearMap_mem (LinearMap.toSpanSingleton ℝ _ p) volume volume hm (by
    intro y
    have hfin : Set.Finite {t : ℝ | (-edges y).charpoly.eval t = 0} := by
      have := Polynomial.finite_setOfPred_isRoot (Matrix.charpoly_monic (-edges y)).ne_zero
      exact this
    have : ∀ᵐ t : ℝ, t ∉ {t : ℝ | (-edges y).charpoly.eval t = 0} :=
      measure_eq_zero_iff_ae_notMem.1 (hfin.measure_zero volume)
    filter_upwards [this] with t ht
    simp only [LinearMap.toSpanSingleton_apply] at ht ⊢
    change ¬ (-edges y).charpoly.eval t = 0 at ht
    rw [Matrix.eval_charpoly] at ht
    convert ht using 2
    ext a j
    simp only [edges, p, Pi.add_apply, Pi.smul_apply, smul_eq_mul, Matrix.sub_apply, Matrix.neg_apply,
      Matrix.scalar_apply, Matrix.diagonal_apply]
    by_cases e : a = j
    · subst e; simp [(Fin.succ_ne_zero a).symm]; ring
    · simp [e, (Fin.succ_ne_zero j).symm])
  filter_upwards [key] with y hy
  exact genPos_of_det hy

/-- Invertible linear images, shifted by fixed vectors. -/
theorem genPos_affine {A : Matrix (Fin n) (Fin n) ℝ} (hA : IsUnit A.det) (w : Fin (n + 1) → Fin n → ℝ) :
    ∀ᵐ y : Fin (n + 1) → Fin n → ℝ, GeneralPosition fun a j => w a j + ∑ i, y a i * A i j := by
  have hq := (measurePreserving_add_left (volume : Measure (Fin (n + 1) → Fin n → ℝ))
    (fun a => w a ᵥ* A⁻¹)).quasiMeasurePreserving.ae (genPos_ae n)
  filter_upwards [hq] with y hy v c hv
  have hback : ∀ a, (w a ᵥ* A⁻¹) ᵥ* A = w a := by
    intro a; rw [vecMul_vecMul, nonsing_inv_mul A hA, vecMul_one]
  have hz : A *ᵥ v = 0 := by
    refine hy _ c fun a => ?_
    have h1 : ∑ j, (A *ᵥ v) j * ((w a ᵥ* A⁻¹) + y a) j = ((w a ᵥ* A⁻¹) + y a) ⬝ᵥ (A *ᵥ v) :=
      Finset.sum_congr rfl fun j _ => mul_comm _ _
    have h2 : ((w a ᵥ* A⁻¹) + y a) ⬝ᵥ (A *ᵥ v) = c := by
      rw [dotProduct_mulVec, add_vecMul, hback, ← hv a]
      exact Finset.sum_congr rfl fun j _ => mul_comm _ _
    exact h1.trans h2
  have : IsUnit A := (Matrix.isUnit_iff_isUnit_det A).2 hA
  have h3 : A⁻¹ *ᵥ (A *ᵥ v) = v := by rw [mulVec_mulVec, nonsing_inv_mul A hA, one_mulVec]
  rw [← h3, hz, mulVec_zero]

end volume

theorem pi_absolutelyContinuous {α : Type} [MeasurableSpace α] : ∀ {n : ℕ} {μ ν : Fin n → Measure α}
    [∀ i, SigmaFinite (μ i)] [∀ i, SigmaFinite (ν i)], (∀ i, μ i ≪ ν i) → Measure.pi μ ≪ Measure.pi ν
  | 0, μ, ν, _, _, _ => by
    rw [Measure.pi_of_empty, Measure.pi_of_empty]
  | n + 1, μ, ν, _, _, h => by
    have h1 := measurePreserving_piFinSuccAbove μ 0
    have h2 := measurePreserving_piFinSuccAbove ν 0
    have hp : (μ 0).prod (Measure.pi fun j => μ ((0 : Fin (n + 1)).succAbove j)) ≪
        (ν 0).prod (Measure.pi fun j => ν ((0 : Fin (n + 1)).succAbove j)) :=
      (h 0).prod (pi_absolutelyContinuous fun i => h _)
    have e1 := h1.symm.map_eq
    have e2 := h2.symm.map_eq
    rw [← e1, ← e2]
    exact hp.map (MeasurableEquiv.measurable _)

/-- Draws `z i j`, all independent, `z i j` with the law `law j`. -/
noncomputable def Spec.drawsLaw (law : ℕ → Measure ℝ) : Measure (Draws ℝ) :=
  Measure.infinitePi fun _ : ℕ => Measure.infinitePi law

section draws
variable {law : ℕ → Measure ℝ} [∀ j, IsProbabilityMeasure (law j)]

instance : IsProbabilityMeasure (drawsLaw law) := by unfold drawsLaw; infer_instance

theorem infinitePi_map_fin {X : Type} [MeasurableSpace X] {μ : ℕ → Measure X} [∀ i, IsProbabilityMeasure (μ i)]
    {m : ℕ} {idx : Fin m → ℕ} (hidx : Function.Injective idx) :
    (Measure.infinitePi μ).map (fun z a => z (idx a)) = Measure.pi fun a => μ (idx a) := by
  symm
  refine Measure.pi_eq fun s hs => ?_
  have hmeas : Measurable (fun (z : ℕ → X) (a : Fin m) => z (idx a)) :=
    measurable_pi_lambda _ fun a => measurable_pi_apply _
  rw [Measure.map_apply hmeas (MeasurableSet.univ_pi hs)]
  let t : ℕ → Set X := fun i => if h : ∃ a, idx a = i then s h.choose else Set.univ
  have ht : ∀ a, t (idx a) = s a := by
    intro a
    have h : ∃ b, idx b = idx a := ⟨a, rfl⟩
    simp only [t, dif_pos h]
    rw [hidx h.choose_spec]
  have e : (fun (z : ℕ → X) a => z (idx a)) ⁻¹' Set.pi Set.univ s =
      Set.pi (Finset.univ.image idx : Finset ℕ) t := by
    ext z
    simp only [Set.mem_preimage, Set.mem_pi, Set.mem_univ, true_imp_iff, Finset.coe_image, Finset.coe_univ,
      Set.image_univ, Set.mem_range, forall_exists_index, forall_apply_eq_imp_iff, ht]
  rw [e, Measure.infinitePi_pi, Finset.prod_image fun a _ b _ h => hidx h]
  · exact Finset.prod_congr rfl fun a _ => by rw [ht]
  · intro i hi
    obtain ⟨a, _, rfl⟩ := Finset.mem_image.1 hi
    rw [ht]; exact hs a

/-- What holds for almost all points of Euclidean space holds for almost all draws. -/
theorem drawsLaw_ae {n m : ℕ} (hac : ∀ j < n, law j ≪ volume) {idx : Fin m → ℕ} (hidx : Function.Injective idx)
    {S : (Fin m → Fin n → ℝ) → Prop} (hS : ∀ᵐ y, S y) : ∀ᵐ z ∂(drawsLaw law), S fun a j => z (idx a) j := by
  have hinner : (Measure.infinitePi law).map (fun (z : ℕ → ℝ) (j : Fin n) => z j) = Measure.pi fun j : Fin n => law j :=
    infinitePi_map_fin (idx := fun j : Fin n => (j : ℕ)) Fin.val_injective
  have hrow : (Measure.infinitePi law).map (fun (z : ℕ → ℝ) (j : Fin n) => z j) ≪ (volume : Measure (Fin n → ℝ)) := by
    rw [hinner]
    exact pi_absolutelyContinuous fun j => hac j j.2
  have hout : (drawsLaw law).map (fun z a => z (idx a)) = Measure.pi fun _ : Fin m => Measure.infinitePi law :=
    infinitePi_map_fin (μ := fun _ => Measure.infinitePi law) hidx
  have hmr : Measurable (fun (z : ℕ → ℝ) (j : Fin n) => z j) := measurable_pi_lambda _ fun j => measurable_pi_apply _
  have hprob : IsProbabilityMeasure ((Measure.infinitePi law).map (fun (z : ℕ → ℝ) (j : Fin n) => z j)) :=
    Measure.isProbabilityMeasure_map hmr.aemeasurable
  have hmap : (Measure.pi fun _ : Fin m => Measure.infinitePi law).map (fun z a (j : Fin n) => z a j) =
      Measure.pi fun _ : Fin m => (Measure.infinitePi law).map (fun (z : ℕ → ℝ) (j : Fin n) => z j) :=
    Measure.pi_map_pi (μ := fun _ : Fin m => Measure.infinitePi law)
      (f := fun _ (z : ℕ → ℝ) (j : Fin n) => z j) (fun _ => hmr.aemeasurable)
  have hS' : ∀ᵐ y ∂(Measure.pi fun _ : Fin m => (Measure.infinitePi law).map (fun (z : ℕ → ℝ) (j : Fin n) => z j)), S y :=
    (pi_absolutelyContinuous (ν := fun _ : Fin m => (volume : Measure (Fin n → ℝ))) fun _ => hrow).ae_le hS
  rw [← hmap, ← hout] at hS'
  have hm1 : Measurable (fun (z : Draws ℝ) (a : Fin m) => z (idx a)) :=
    measurable_pi_lambda _ fun a => measurable_pi_apply _
  have hm2 : Measurable (fun (z : Fin m → ℕ → ℝ) (a : Fin m) (j : Fin n) => z a j) :=
    measurable_pi_lambda _ fun a => measurable_pi_lambda _ fun j => (measurable_pi_apply _).comp (measurable_pi_apply _)
  exact ae_of_ae_map hm1.aemeasurable (ae_of_ae_map hm2.aemeasurable hS')

end draws

end Verif
