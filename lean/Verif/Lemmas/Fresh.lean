/-
Repeated trials whose chance of success depends on the past in a measurable way: if every trial succeeds, given
the past, with probability at least `δ`, then `n` trials in a row fail with probability at most `(1 - δ) ^ n`.
-/
import Mathlib.Probability.Independence.InfinitePi
import Mathlib.Probability.Independence.Basic
import Mathlib.Probability.ProductMeasure

namespace Verif

open MeasureTheory ProbabilityTheory

/-- One trial with a fresh draw `Z`; `Y` is what happened before. -/
theorem fresh_fail_le {Ω S ζ : Type} [MeasurableSpace Ω] [MeasurableSpace S] [MeasurableSpace ζ]
    (μ : Measure Ω) [IsProbabilityMeasure μ] {Y : Ω → S} {Z : Ω → ζ} (hY : Measurable Y) (hZ : Measurable Z)
    (hind : IndepFun Y Z μ) {E : Set S} (hE : MeasurableSet E) {H : Set (S × ζ)} (hH : MeasurableSet H)
    {δ : ENNReal} (hδ : ∀ y ∈ E, δ ≤ μ.map Z {z | (y, z) ∈ H}) :
    μ {ω | Y ω ∈ E ∧ (Y ω, Z ω) ∉ H} ≤ (1 - δ) * μ (Y ⁻¹' E) := by
  have hprod := (indepFun_iff_map_prod_eq_prod_map_map hY.aemeasurable hZ.aemeasurable).1 hind
  have hB : MeasurableSet ((Prod.fst ⁻¹' E ∩ Hᶜ : Set (S × ζ))) := (measurable_fst hE).inter hH.compl
  have h1 : {ω | Y ω ∈ E ∧ (Y ω, Z ω) ∉ H} = (fun ω => (Y ω, Z ω)) ⁻¹' (Prod.fst ⁻¹' E ∩ Hᶜ) := by
    ext ω; simp
  have : IsProbabilityMeasure (μ.map Z) := Measure.isProbabilityMeasure_map hZ.aemeasurable
  rw [h1, ← Measure.map_apply (hY.prodMk hZ) hB, hprod, Measure.prod_apply hB]
  calc ∫⁻ y, μ.map Z (Prod.mk y ⁻¹' (Prod.fst ⁻¹' E ∩ Hᶜ)) ∂μ.map Y
      ≤ ∫⁻ y, E.indicator (fun _ => 1 - δ) y ∂μ.map Y := by
        refine lintegral_mono fun y => ?_
        by_cases hy : y ∈ E
        · rw [Set.indicator_of_mem hy]
          have hs : Prod.mk y ⁻¹' (Prod.fst ⁻¹' E ∩ Hᶜ) = {z | (y, z) ∈ H}ᶜ := by
            ext z; simp [hy]
          have hm : MeasurableSet {z | (y, z) ∈ H} := measurable_prodMk_left hH
          rw [hs, prob_compl_eq_one_sub hm]
          exact tsub_le_tsub_left (hδ y hy) 1
        · have hs : Prod.mk y ⁻¹' (Prod.fst ⁻¹' E ∩ Hᶜ) = ∅ := by
            ext z; simp [hy]
          rw [hs, measure_empty]
          exact zero_le
    _ = (1 - δ) * μ (Y ⁻¹' E) := by
        rw [lintegral_indicator hE, lintegral_const, Measure.restrict_apply MeasurableSet.univ, Set.univ_inter,
          Measure.map_apply hY hE]

section
variable {X : Type} [MeasurableSpace X]

/-- The draws before number `t`; the others are replaced by `x0`. -/
def before (x0 : X) (t : ℕ) (ω : ℕ → X) : ℕ → X := fun i => if i < t then ω i else x0

theorem before_measurable (x0 : X) (t : ℕ) : Measurable (before x0 t) := by
  refine measurable_pi_iff.2 fun i => ?_
  unfold before
  by_cases h : i < t
  · simp only [h, if_true]; exact measurable_pi_apply i
  · simp only [h, if_false]; exact measurable_const

theorem before_indep (D : Measure X) [IsProbabilityMeasure D] (x0 : X) (t : ℕ) :
    IndepFun (before x0 t) (fun ω => ω t) (Measure.infinitePi fun _ : ℕ => D) := by
  have h := (iIndepFun_infinitePi (P := fun _ : ℕ => D) (X := fun _ x => x) fun _ => measurable_id).indepFun_finset
    (Finset.range t) {t} (by simp) (fun i => measurable_pi_apply i)
  have hψ : Measurable (fun y : ({t} : Finset ℕ) → X => y ⟨t, by simp⟩) := measurable_pi_apply _
  have hφ : Measurable (fun (y : Finset.range t → X) (i : ℕ) =>
      if hi : i ∈ Finset.range t then y ⟨i, hi⟩ else x0) := by
    refine measurable_pi_iff.2 fun i => ?_
    by_cases hi : i ∈ Finset.range t
    · simp only [hi, dif_pos]; exact measurable_pi_apply _
    · simp only [hi, dif_neg, not_false_eq_true]; exact measurable_const
  refine (h.comp hφ hψ).congr ?_ ?_
  · refine Filter.Eventually.of_forall fun ω => ?_
    funext i
    simp only [Function.comp, before, Finset.mem_range]
    split <;> rfl
  · exact Filter.Eventually.of_forall fun ω => rfl

/-- The draws with which all trials before number `t` (the first has number `t0`) fail. -/
def allMiss (H : ℕ → Set ((ℕ → X) × X)) (t0 : ℕ) (t : ℕ) : Set (ℕ → X) :=
  {ω | ∀ i, t0 ≤ i → i < t → (ω, ω i) ∉ H i}

/-- `n` failures in a row have probability at most `(1 - δ) ^ n`: trial `t` is decided by the draws before `t`
(in a measurable way) and the draw number `t`; `Inv` holds of the draws as long as all trials failed. -/
theorem allMiss_le (D : Measure X) [IsProbabilityMeasure D] {H : ℕ → Set ((ℕ → X) × X)} {t0 : ℕ} {δ : ENNReal}
    (hH : ∀ t, MeasurableSet (H t))
    (hpast : ∀ t ω ω' x, (∀ i < t, ω i = ω' i) → ((ω, x) ∈ H t ↔ (ω', x) ∈ H t))
    (hδ : ∀ t, t0 ≤ t → ∀ ω, δ ≤ D {x | (ω, x) ∈ H t}) (n : ℕ) :
    Measure.infinitePi (fun _ : ℕ => D) (allMiss H t0 (t0 + n)) ≤ (1 - δ) ^ n := by
  have hmeas : ∀ t, MeasurableSet (allMiss H t0 t) := by
    intro t
    have : allMiss H t0 t = ⋂ i, ⋂ (_ : t0 ≤ i), ⋂ (_ : i < t), {ω : ℕ → X | (ω, ω i) ∉ H i} := by
      ext ω; simp [allMiss]
    rw [this]
    refine MeasurableSet.iInter fun i => MeasurableSet.iInter fun _ => MeasurableSet.iInter fun _ => ?_
    exact ((measurable_id.prodMk (measurable_pi_apply i)) (hH i)).compl
  obtain ⟨x0⟩ : Nonempty X := by
    by_contra h
    rw [not_nonempty_iff] at h
    have := measure_univ (μ := D)
    rw [Set.univ_eq_empty_iff.2 h, measure_empty] at this
    exact zero_ne_one this
  have hb : ∀ t ω, ω ∈ allMiss H t0 t ↔ before x0 t ω ∈ allMiss H t0 t := by
    intro t ω
    simp only [allMiss, Set.mem_ofPred_eq]
    refine forall_congr' fun i => forall_congr' fun _ => forall_congr' fun hi => not_congr ?_
    have : before x0 t ω i = ω i := by simp [before, hi]
    rw [this]
    refine hpast i _ _ _ fun k hk => ?_
    simp [before, hk.trans hi]
  induction n with
  | zero => simpa using prob_le_one
  | succ n ih =>
    set t := t0 + n with ht
    have hstep : allMiss H t0 (t0 + (n + 1)) =
        {ω | before x0 t ω ∈ allMiss H t0 t ∧ (before x0 t ω, ω t) ∉ H t} := by
      ext ω
      simp only [Set.mem_ofPred_eq]
      rw [← hb t ω, ← not_congr (hpast t ω (before x0 t ω) (ω t) fun i hi => by simp [before, hi])]
      constructor
      · intro h
        exact ⟨fun i h1 h2 => h i h1 (by omega), h t (by omega) (by omega)⟩
      · rintro ⟨h1, h2⟩ i h3 h4
        rcases Nat.lt_or_ge i t with h | h
        · exact h1 i h3 h
        · obtain rfl : i = t := by omega
          exact h2
    have hmap : (Measure.infinitePi fun _ : ℕ => D).map (fun ω => ω t) = D :=
      Measure.infinitePi_map_eval _ t
    rw [hstep]
    refine (fresh_fail_le _ (before_measurable x0 t) (measurable_pi_apply t) (before_indep D x0 t)
      (hmeas t) (hH t) (δ := δ) ?_).trans ?_
    · intro y _
      rw [hmap]
      exact hδ t (by omega) y
    · have : before x0 t ⁻¹' allMiss H t0 t = allMiss H t0 t := by
        ext ω; exact (hb t ω).symm
      rw [this, pow_succ, mul_comm]
      gcongr

end

end Verif
