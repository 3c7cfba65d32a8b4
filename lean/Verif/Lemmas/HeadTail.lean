/-
Independent draws for the passes of a run: the draws of the first pass and those of the remaining ones.
-/
import Mathlib.Probability.ProductMeasure
import Mathlib.MeasureTheory.Measure.Prod

namespace Verif

open MeasureTheory

variable {Ω : Type} [MeasurableSpace Ω]

/-- A sequence from its first element and the others. -/
def seqCons (p : Ω × (ℕ → Ω)) : ℕ → Ω
  | 0 => p.1
  | k + 1 => p.2 k

/-- A sequence is its first element and the others. -/
def headTail : (Ω × (ℕ → Ω)) ≃ᵐ (ℕ → Ω) where
  toFun := seqCons
  invFun ω := (ω 0, fun k => ω (k + 1))
  left_inv p := rfl
  right_inv ω := by funext k; cases k <;> rfl
  measurable_toFun := by
    refine measurable_pi_iff.2 fun k => ?_
    cases k with
    | zero => exact measurable_fst
    | succ k => exact (measurable_pi_apply k).comp measurable_snd
  measurable_invFun := (measurable_pi_apply 0).prodMk
    (measurable_pi_iff.2 fun k => measurable_pi_apply (k + 1))

/-- The first draw is independent of the others. -/
theorem headTail_preserving (D : Measure Ω) [IsProbabilityMeasure D] :
    MeasurePreserving (headTail (Ω := Ω)) (D.prod (Measure.infinitePi fun _ : ℕ => D))
      (Measure.infinitePi fun _ : ℕ => D) := by
  refine ⟨headTail.measurable, ?_⟩
  refine Measure.eq_infinitePi _ fun s A hA => ?_
  rw [Measure.map_apply headTail.measurable (.pi s.countable_toSet fun i _ => hA i)]
  have hpre : headTail ⁻¹' (Set.pi (s : Set ℕ) A) =
      (if 0 ∈ s then A 0 else Set.univ) ×ˢ
        (Set.pi ((s.filter (0 < ·)).image Nat.pred : Finset ℕ) (fun k => A (k + 1))) := by
    ext ⟨x, y⟩
    simp only [Set.mem_preimage, Set.mem_pi, Set.mem_prod, Finset.mem_coe, Finset.mem_image,
      Finset.mem_filter]
    constructor
    · intro h
      refine ⟨?_, ?_⟩
      · split
        · exact h 0 ‹_›
        · trivial
      · rintro k ⟨i, ⟨hi, hpos⟩, rfl⟩
        have := h i hi
        obtain ⟨k, rfl⟩ : ∃ k, i = k + 1 := ⟨i - 1, by omega⟩
        exact this
    · rintro ⟨h1, h2⟩ i hi
      cases i with
      | zero => rw [if_pos hi] at h1; exact h1
      | succ k => exact h2 k ⟨k + 1, ⟨hi, by omega⟩, rfl⟩
  rw [hpre, Measure.prod_prod, Measure.infinitePi_pi _ (fun i _ => hA (i + 1))]
  rw [Finset.prod_image]
  · have hpos : ∏ i ∈ s.filter (0 < ·), D (A (Nat.pred i + 1)) = ∏ i ∈ s.filter (0 < ·), D (A i) := by
      refine Finset.prod_congr rfl fun i hi => ?_
      have := (Finset.mem_filter.1 hi).2
      rw [Nat.pred_eq_sub_one, Nat.sub_add_cancel this]
    rw [hpos, ← Finset.prod_filter_mul_prod_filter_not s (0 < ·), mul_comm]
    congr 1
    by_cases h0 : 0 ∈ s
    · rw [if_pos h0]
      have : s.filter (¬ 0 < ·) = {0} := by
        ext i
        simp only [Finset.mem_filter, Finset.mem_singleton, not_lt, Nat.le_zero]
        exact ⟨fun h => h.2, fun h => ⟨h ▸ h0, h⟩⟩
      rw [this, Finset.prod_singleton]
    · rw [if_neg h0, measure_univ]
      have : s.filter (¬ 0 < ·) = ∅ := by
        ext i
        simp only [Finset.mem_filter, not_lt, Nat.le_zero, Finset.notMem_empty, iff_false]
        rintro ⟨h, rfl⟩
        exact h0 h
      rw [this, Finset.prod_empty]
  · intro i hi j hj hij
    have := (Finset.mem_filter.1 hi).2
    have := (Finset.mem_filter.1 hj).2
    simp only [Nat.pred_eq_sub_one] at hij
    omega

/-- An event that depends on the first draw only through a discrete value `X`: its probability. -/
theorem headTail_measure {ι : Type} [Countable ι] (D : Measure Ω) [IsProbabilityMeasure D] {X : Ω → ι}
    (hX : ∀ x, NullMeasurableSet (X ⁻¹' {x}) D) {E : Set (ℕ → Ω)} {F : ι → Set (ℕ → Ω)}
    (hF : ∀ x, NullMeasurableSet (F x) (Measure.infinitePi fun _ : ℕ => D))
    (hE : ∀ᵐ u ∂D, ∀ ω, seqCons (u, ω) ∈ E ↔ ω ∈ F (X u)) :
    NullMeasurableSet E (Measure.infinitePi fun _ : ℕ => D) ∧
    (Measure.infinitePi fun _ : ℕ => D) E =
      ∑' x, D (X ⁻¹' {x}) * (Measure.infinitePi fun _ : ℕ => D) (F x) := by
  set P := Measure.infinitePi fun _ : ℕ => D with hP
  have hpre : (headTail ⁻¹' E : Set (Ω × (ℕ → Ω))) =ᵐ[D.prod P] ⋃ x, (X ⁻¹' {x}) ×ˢ F x := by
    have h1 : ∀ᵐ p ∂(D.prod P), ∀ ω, seqCons (p.1, ω) ∈ E ↔ ω ∈ F (X p.1) :=
      Measure.quasiMeasurePreserving_fst.ae hE
    refine Filter.eventuallyEq_set.2 ?_
    filter_upwards [h1] with p hp
    simp only [Set.mem_preimage, Set.mem_iUnion, Set.mem_prod, Set.mem_singleton_iff]
    constructor
    · intro h
      exact ⟨X p.1, rfl, (hp p.2).1 h⟩
    · rintro ⟨x, rfl, h⟩
      exact (hp p.2).2 h
  have hn : ∀ x, NullMeasurableSet ((X ⁻¹' {x}) ×ˢ F x) (D.prod P) := fun x =>
    (hX x).prod (hF x)
  have hpn : NullMeasurableSet (headTail ⁻¹' E) (D.prod P) := (NullMeasurableSet.iUnion hn).congr hpre.symm
  constructor
  · have hs := (headTail_preserving D).symm
    have := hpn.preimage hs.quasiMeasurePreserving
    rwa [← Set.preimage_comp, MeasurableEquiv.self_comp_symm, Set.preimage_id] at this
  · rw [← (headTail_preserving D).measure_preimage_equiv E, measure_congr hpre, measure_iUnion₀ _ hn]
    · simp only [Measure.prod_prod]
    · intro x y hxy
      refine Disjoint.aedisjoint ?_
      rw [Set.disjoint_left]
      rintro p ⟨h1, _⟩ ⟨h2, _⟩
      exact hxy (h1.symm.trans h2)

end Verif
