/-
The spread of the `q` individuals with the lowest scores among independent ones.
-/
import Verif.Lemmas.Slope

set_option linter.unusedSectionVars false

namespace Verif

open MeasureTheory ProbabilityTheory Filter

section
variable {X : Type} [MeasurableSpace X] {ν : Measure X} [IsProbabilityMeasure ν] {s z : X → ℝ}

/-- The variance of `z` on the set `A` is at most 1 (written without division). -/
def NarrowOn (ν : Measure X) (z : X → ℝ) (A : Set X) : Prop :=
  (∫ x in A, z x ^ 2 ∂ν) * ν.real A - (∫ x in A, z x ∂ν) ^ 2 ≤ ν.real A ^ 2

/-- Two independent points of `A`. -/
theorem pair_spread (hz : MemLp z 2 ν) {A : Set X} (h : NarrowOn ν z A) :
    ∫⁻ x in A, ∫⁻ y in A, ENNReal.ofReal ((z x - z y) ^ 2) ∂ν ∂ν ≤ 2 * (ν A * ν A) := by
  have i2 : Integrable (fun x => z x ^ 2) (ν.restrict A) := hz.integrable_sq.integrableOn
  have i1 : Integrable z (ν.restrict A) := (hz.integrable (by norm_num)).integrableOn
  have e1 : ∀ x, ∫⁻ y in A, ENNReal.ofReal ((z x - z y) ^ 2) ∂ν =
      ENNReal.ofReal (z x ^ 2 * ν.real A - 2 * z x * (∫ y in A, z y ∂ν) + ∫ y in A, z y ^ 2 ∂ν) := by
    intro x
    have e : ∀ y, (z x - z y) ^ 2 = (z x ^ 2 - 2 * z x * z y) + z y ^ 2 := fun y => by ring
    have j1 : Integrable (fun y => z x ^ 2 - 2 * z x * z y) (ν.restrict A) := (integrable_const _).sub (i1.const_mul _)
    rw [← ofReal_integral_eq_lintegral_ofReal _ (Eventually.of_forall fun y => sq_nonneg _)]
    · simp only [e]
      rw [integral_add j1 i2, integral_sub (integrable_const _) (i1.const_mul _), integral_const_mul]
      congr 1
      simp
      ring
    · simp only [e]; exact j1.add i2
  simp only [e1]
  set p1 := ∫ y in A, z y ∂ν
  set p2 := ∫ y in A, z y ^ 2 ∂ν
  have hnn : ∀ x, 0 ≤ z x ^ 2 * ν.real A - 2 * z x * p1 + p2 := by
    intro x
    have e : ∀ y, (z x - z y) ^ 2 = (z x ^ 2 - 2 * z x * z y) + z y ^ 2 := fun y => by ring
    have j1 : Integrable (fun y => z x ^ 2 - 2 * z x * z y) (ν.restrict A) := (integrable_const _).sub (i1.const_mul _)
    have : 0 ≤ ∫ y in A, (z x - z y) ^ 2 ∂ν := integral_nonneg fun y => sq_nonneg _
    simp only [e] at this
    rw [integral_add j1 i2, integral_sub (integrable_const _) (i1.const_mul _), integral_const_mul] at this
    simp only [integral_const, measureReal_restrict_apply_univ, smul_eq_mul] at this
    linarith
  have j1 : Integrable (fun x => z x ^ 2 * ν.real A - 2 * z x * p1) (ν.restrict A) :=
    (i2.mul_const _).sub ((i1.const_mul 2).mul_const p1)
  have j2 : Integrable (fun x => z x ^ 2 * ν.real A - 2 * z x * p1 + p2) (ν.restrict A) := j1.add (integrable_const p2)
  rw [← ofReal_integral_eq_lintegral_ofReal j2 (Eventually.of_forall hnn)]
  have : ∫ x in A, (z x ^ 2 * ν.real A - 2 * z x * p1 + p2) ∂ν = 2 * (p2 * ν.real A - p1 ^ 2) := by
    rw [integral_add j1 (integrable_const p2), integral_sub (i2.mul_const _) ((i1.const_mul 2).mul_const p1),
      integral_mul_const, integral_mul_const, integral_const_mul]
    simp only [integral_const, measureReal_restrict_apply_univ, smul_eq_mul]
    ring
  rw [this]
  unfold NarrowOn at h
  refine (ENNReal.ofReal_le_ofReal (mul_le_mul_of_nonneg_left h (by norm_num))).trans ?_
  rw [ENNReal.ofReal_mul (by norm_num), pow_two, ENNReal.ofReal_mul measureReal_nonneg, ofReal_measureReal]
  simp

variable {ι : Type} [Fintype ι] [DecidableEq ι]

/-- The individuals in `S` have the lowest scores. -/
def Lowest (s : X → ℝ) (S : Finset ι) : Set (ι → X) := {x | ∀ i ∈ S, ∀ l, l ∉ S → s (x i) ≤ s (x l)}

theorem lowest_measurable (hs : Measurable s) (S : Finset ι) : MeasurableSet (Lowest s S) := by
  have : Lowest s S = ⋂ i, ⋂ (_ : i ∈ S), ⋂ l, ⋂ (_ : l ∉ S), {x : ι → X | s (x i) ≤ s (x l)} := by
    ext x; simp [Lowest]
  rw [this]
  exact MeasurableSet.iInter fun i => MeasurableSet.iInter fun _ => MeasurableSet.iInter fun l =>
    MeasurableSet.iInter fun _ => measurableSet_le (hs.comp (measurable_pi_apply i)) (hs.comp (measurable_pi_apply l))

theorem lowest_update (S : Finset ι) {i k : ι} (hi : i ∈ S) (hk : k ∈ S) (hik : i ≠ k) (x : ι → X) (a b : X) :
    Function.update (Function.update x i a) k b ∈ Lowest s S ↔
      (∀ i' ∈ S, i' ≠ i → i' ≠ k → ∀ l, l ∉ S → s (x i') ≤ s (x l)) ∧
        a ∈ {a | ∀ l, l ∉ S → s a ≤ s (x l)} ∧ b ∈ {a | ∀ l, l ∉ S → s a ≤ s (x l)} := by
  have hx : ∀ l, l ∉ S → Function.update (Function.update x i a) k b l = x l := by
    intro l hl
    rw [Function.update_of_ne (by rintro rfl; exact hl hk), Function.update_of_ne (by rintro rfl; exact hl hi)]
  have h1 : Function.update (Function.update x i a) k b i = a := by
    rw [Function.update_of_ne hik, Function.update_self]
  have h2 : Function.update (Function.update x i a) k b k = b := Function.update_self _ _ _
  simp only [Lowest, Set.mem_ofPred_eq]
  constructor
  · intro h
    refine ⟨fun i' hi' n1 n2 l hl => ?_, fun l hl => ?_, fun l hl => ?_⟩
    · have := h i' hi' l hl
      rwa [hx l hl, Function.update_of_ne n2, Function.update_of_ne n1] at this
    · have := h i hi l hl
      rwa [hx l hl, h1] at this
    · have := h k hk l hl
      rwa [hx l hl, h2] at this
  · rintro ⟨h3, h4, h5⟩ i' hi' l hl
    rw [hx l hl]
    by_cases n1 : i' = i
    · subst n1; rw [h1]; exact h4 l hl
    by_cases n2 : i' = k
    · subst n2; rw [h2]; exact h5 l hl
    rw [Function.update_of_ne n2, Function.update_of_ne n1]
    exact h3 i' hi' n1 n2 l hl

/-- What is below the scores of all other individuals is below the lowest of them. -/
theorem below_all (S : Finset ι) (x : ι → X) : {a : X | ∀ l, l ∉ S → s a ≤ s (x l)} = Set.univ ∨
    ∃ c, {a : X | ∀ l, l ∉ S → s a ≤ s (x l)} = {a | s a ≤ c} := by
  by_cases h : (Sᶜ : Finset ι).Nonempty
  · obtain ⟨l, hl, hmin⟩ := Finset.exists_min_image Sᶜ (fun l => s (x l)) h
    refine .inr ⟨s (x l), ?_⟩
    ext a
    simp only [Set.mem_ofPred_eq]
    exact ⟨fun h' => h' l (Finset.mem_compl.1 hl), fun h' l' hl' => h'.trans (hmin l' (Finset.mem_compl.2 hl'))⟩
  · refine .inl ?_
    rw [Finset.not_nonempty_iff_eq_empty] at h
    ext a
    simp only [Set.mem_ofPred_eq, Set.mem_univ, iff_true]
    intro l hl
    exact absurd (Finset.mem_compl.2 hl) (by rw [h]; simp)

theorem low_pair (hs : Measurable s) (hzm : Measurable z) (hz : MemLp z 2 ν) (huniv : NarrowOn ν z Set.univ)
    (hc : ∀ c, NarrowOn ν z {x | s x ≤ c}) (S : Finset ι) {i k : ι} (hi : i ∈ S) (hk : k ∈ S) (hik : i ≠ k) :
    ∫⁻ x, (Lowest s S).indicator (fun x => ENNReal.ofReal ((z (x i) - z (x k)) ^ 2)) x ∂Measure.pi (fun _ : ι => ν) ≤
      ∫⁻ x, (Lowest s S).indicator (fun _ => 2) x ∂Measure.pi (fun _ : ι => ν) := by
  have hL := lowest_measurable (ι := ι) hs S
  have hf : Measurable fun x : ι → X => (Lowest s S).indicator (fun x => ENNReal.ofReal ((z (x i) - z (x k)) ^ 2)) x := by
    refine Measurable.indicator ?_ hL
    exact (((hzm.comp (measurable_pi_apply i)).sub (hzm.comp (measurable_pi_apply k))).pow_const 2).ennreal_ofReal
  have hg : Measurable fun x : ι → X => (Lowest s S).indicator (fun _ => (2 : ENNReal)) x := measurable_const.indicator hL
  refine lintegral_le_of_lmarginal_le {i, k} hf hg fun x => ?_
  rw [lmarginal_insert _ hf (by simpa using hik), lmarginal_insert _ hg (by simpa using hik)]
  simp only [lmarginal_singleton]
  by_cases hr : ∀ i' ∈ S, i' ≠ i → i' ≠ k → ∀ l, l ∉ S → s (x i') ≤ s (x l)
  · set A := {a : X | ∀ l, l ∉ S → s a ≤ s (x l)} with hA
    have hAm : MeasurableSet A := by
      have : A = ⋂ l, ⋂ (_ : l ∉ S), {a | s a ≤ s (x l)} := by ext a; simp [hA]
      rw [this]
      exact MeasurableSet.iInter fun l => MeasurableSet.iInter fun _ => measurableSet_le hs measurable_const
    have hN : NarrowOn ν z A := by
      rcases below_all (s := s) S x with h | ⟨c, h⟩
      · rw [hA, h]; exact huniv
      · rw [hA, h]; exact hc c
    have e1 : ∀ (F : (ι → X) → ENNReal) (G : X → X → ENNReal),
        (∀ a b, F (Function.update (Function.update x i a) k b) = G a b) → ∀ a b,
        (Lowest s S).indicator F (Function.update (Function.update x i a) k b) =
          A.indicator (fun a => A.indicator (G a) b) a := by
      intro F G hFG a b
      have h := lowest_update (s := s) S hi hk hik x a b
      by_cases ha : a ∈ A
      · by_cases hb : b ∈ A
        · rw [Set.indicator_of_mem (h.2 ⟨hr, ha, hb⟩), Set.indicator_of_mem ha, Set.indicator_of_mem hb, hFG]
        · rw [Set.indicator_of_notMem (fun h' => hb (h.1 h').2.2), Set.indicator_of_mem ha, Set.indicator_of_notMem hb]
      · rw [Set.indicator_of_notMem (fun h' => ha (h.1 h').2.1), Set.indicator_of_notMem ha]
    have e2 : ∀ G : X → X → ENNReal, ∫⁻ a, ∫⁻ b, A.indicator (fun a => A.indicator (G a) b) a ∂ν ∂ν =
        ∫⁻ a in A, ∫⁻ b in A, G a b ∂ν ∂ν := by
      intro G
      rw [← lintegral_indicator hAm]
      refine lintegral_congr fun a => ?_
      by_cases ha : a ∈ A
      · simp only [Set.indicator_of_mem ha]
        rw [← lintegral_indicator hAm]
      · simp [Set.indicator_of_notMem ha]
    have u1 : ∀ a b, Function.update (Function.update x i a) k b i = a := fun a b => by
      rw [Function.update_of_ne hik, Function.update_self]
    have e3 := e1 (fun x => ENNReal.ofReal ((z (x i) - z (x k)) ^ 2)) (fun a b => ENNReal.ofReal ((z a - z b) ^ 2))
      (fun a b => by rw [u1, Function.update_self])
    have e4 := e1 (fun _ => 2) (fun _ _ => 2) (fun _ _ => rfl)
    simp only [e3, e4]
    rw [e2 fun a b => ENNReal.ofReal ((z a - z b) ^ 2), e2 fun _ _ => 2]
    refine (pair_spread hz hN).trans (le_of_eq ?_)
    simp only [lintegral_const, Measure.restrict_apply_univ]
    ring
  · have e1 : ∀ (F : (ι → X) → ENNReal) a b,
        (Lowest s S).indicator F (Function.update (Function.update x i a) k b) = 0 := fun F a b =>
      Set.indicator_of_notMem (fun h => hr ((lowest_update (s := s) S hi hk hik x a b).1 h).1) _
    simp [e1]

/-- The variance of the values of `z` at the individuals in `S`, from the differences of pairs. -/
noncomputable def pairVar (z : X → ℝ) (S : Finset ι) (x : ι → X) : ℝ :=
  (∑ i ∈ S, ∑ k ∈ S, (z (x i) - z (x k)) ^ 2) / (2 * (S.card : ℝ) ^ 2)

theorem pairVar_nonneg (z : X → ℝ) (S : Finset ι) (x : ι → X) : 0 ≤ pairVar z S x := by
  unfold pairVar; positivity

theorem low_spread (hs : Measurable s) (hzm : Measurable z) (hz : MemLp z 2 ν) (huniv : NarrowOn ν z Set.univ)
    (hc : ∀ c, NarrowOn ν z {x | s x ≤ c}) (S : Finset ι) :
    ∫⁻ x, (Lowest s S).indicator (fun x => ENNReal.ofReal (pairVar z S x)) x ∂Measure.pi (fun _ : ι => ν) ≤
      ENNReal.ofReal (1 - 1 / S.card) * Measure.pi (fun _ : ι => ν) (Lowest s S) := by
  have hL := lowest_measurable (ι := ι) hs S
  set P := Measure.pi (fun _ : ι => ν) (Lowest s S) with hP
  set q : ℝ := (S.card : ℝ) with hq
  have hm : ∀ i k, Measurable fun x : ι → X =>
      (Lowest s S).indicator (fun x => ENNReal.ofReal ((z (x i) - z (x k)) ^ 2)) x := fun i k => by
    refine Measurable.indicator ?_ hL
    exact (((hzm.comp (measurable_pi_apply i)).sub (hzm.comp (measurable_pi_apply k))).pow_const 2).ennreal_ofReal
  have e1 : ∀ x, (Lowest s S).indicator (fun x => ENNReal.ofReal (pairVar z S x)) x =
      ∑ i ∈ S, ∑ k ∈ S, ENNReal.ofReal (1 / (2 * q ^ 2)) *
        (Lowest s S).indicator (fun x => ENNReal.ofReal ((z (x i) - z (x k)) ^ 2)) x := by
    intro x
    by_cases hx : x ∈ Lowest s S
    · simp only [Set.indicator_of_mem hx]
      simp only [← Finset.mul_sum]
      simp only [← ENNReal.ofReal_sum_of_nonneg (fun k (_ : k ∈ S) => sq_nonneg (z (x _) - z (x k)))]
      rw [← ENNReal.ofReal_sum_of_nonneg (fun i _ => Finset.sum_nonneg fun k _ => sq_nonneg _),
        ← ENNReal.ofReal_mul (by positivity)]
      congr 1
      unfold pairVar
      rw [← hq]; ring
    · simp [Set.indicator_of_notMem hx]
  simp only [e1]
  rw [lintegral_finsetSum _ fun i _ => Finset.measurable_fun_sum _ fun k _ => (hm i k).const_mul _]
  have e2 : ∀ i ∈ S, ∫⁻ x, ∑ k ∈ S, ENNReal.ofReal (1 / (2 * q ^ 2)) *
        (Lowest s S).indicator (fun x => ENNReal.ofReal ((z (x i) - z (x k)) ^ 2)) x ∂Measure.pi (fun _ : ι => ν) ≤
      ENNReal.ofReal (1 / (2 * q ^ 2)) * (ENNReal.ofReal (q - 1) * (2 * P)) := by
    intro i hi
    rw [lintegral_finsetSum _ fun k _ => (hm i k).const_mul _]
    simp only [lintegral_const_mul _ (hm i _)]
    rw [← Finset.mul_sum]
    gcongr
    rw [← Finset.add_sum_erase S _ hi]
    have z0 : ∫⁻ x, (Lowest s S).indicator (fun x : ι → X => ENNReal.ofReal ((z (x i) - z (x i)) ^ 2)) x
        ∂Measure.pi (fun _ : ι => ν) = 0 := by simp
    rw [z0, zero_add]
    refine (Finset.sum_le_card_nsmul _ _ (2 * P) fun k hk => ?_).trans (le_of_eq ?_)
    · rw [Finset.mem_erase] at hk
      refine (low_pair hs hzm hz huniv hc S hi hk.2 (Ne.symm hk.1)).trans (le_of_eq ?_)
      rw [lintegral_indicator hL]
      simp [hP]
    · rw [Finset.card_erase_of_mem hi, nsmul_eq_mul]
      congr 1
      have : 1 ≤ S.card := Finset.card_pos.2 ⟨i, hi⟩
      have e : (S.card : ℝ) - 1 = ((S.card - 1 : ℕ) : ℝ) := by rw [Nat.cast_sub this]; simp
      rw [hq, e, ENNReal.ofReal_natCast]
  refine (Finset.sum_le_card_nsmul _ _ _ e2).trans ?_
  rw [nsmul_eq_mul]
  rcases Nat.eq_zero_or_pos S.card with h0 | h0
  · have hS : S = ∅ := Finset.card_eq_zero.1 h0
    subst hS
    simp [hq]
  refine le_of_eq ?_
  have hq1 : 1 ≤ q := by rw [hq]; exact_mod_cast h0
  rw [← ENNReal.ofReal_natCast, ← hq, ← mul_assoc, ← mul_assoc, ← mul_assoc, ← ENNReal.ofReal_mul (by positivity),
    ← ENNReal.ofReal_mul (by positivity), show (2 : ENNReal) = ENNReal.ofReal 2 by simp,
    ← ENNReal.ofReal_mul (by apply mul_nonneg; positivity; linarith)]
  congr 2
  field_simp

/-- Ties have probability 0. -/
theorem no_ties (hs : Measurable s) (hc : ∀ c, ν {x | s x = c} = 0) :
    ∀ᵐ x ∂Measure.pi (fun _ : ι => ν), Function.Injective fun i => s (x i) := by
  have h : ∀ i k : ι, i ≠ k → ∀ᵐ x ∂Measure.pi (fun _ : ι => ν), s (x i) ≠ s (x k) := by
    intro i k hik
    have hm : MeasurableSet {x : ι → X | s (x i) = s (x k)} :=
      measurableSet_eq_fun (hs.comp (measurable_pi_apply i)) (hs.comp (measurable_pi_apply k))
    have hf : Measurable fun x : ι → X => {x : ι → X | s (x i) = s (x k)}.indicator (fun _ => (1 : ENNReal)) x :=
      measurable_const.indicator hm
    rw [ae_iff]
    simp only [not_not]
    rw [← lintegral_indicator_one hm]
    refine le_antisymm ?_ zero_le
    have := lintegral_le_of_lmarginal_le (μ := fun _ : ι => ν) {i} hf (measurable_const (a := (0 : ENNReal))) ?_
    · have h0 : ∫⁻ _ : ι → X, (0 : ENNReal) ∂Measure.pi (fun _ : ι => ν) = 0 := by simp
      exact this.trans h0.le
    · intro x
      simp only [lmarginal_singleton]
      have e1 : ∀ a, {x : ι → X | s (x i) = s (x k)}.indicator (fun _ => (1 : ENNReal)) (Function.update x i a) =
          {a | s a = s (x k)}.indicator (fun _ => 1) a := by
        intro a
        have : Function.update x i a ∈ {x : ι → X | s (x i) = s (x k)} ↔ a ∈ {a | s a = s (x k)} := by
          simp only [Set.mem_ofPred_eq]
          rw [Function.update_self, Function.update_of_ne (Ne.symm hik)]
        by_cases ha : a ∈ {a | s a = s (x k)}
        · rw [Set.indicator_of_mem (this.2 ha), Set.indicator_of_mem ha]
        · rw [Set.indicator_of_notMem (fun h => ha (this.1 h)), Set.indicator_of_notMem ha]
      simp only [e1]
      rw [lintegral_indicator (measurableSet_eq_fun hs measurable_const)]
      simp [hc]
  have h2 : ∀ᵐ x ∂Measure.pi (fun _ : ι => ν), ∀ i k : ι, i ≠ k → s (x i) ≠ s (x k) := by
    refine ae_all_iff.2 fun i => ae_all_iff.2 fun k => ?_
    by_cases hik : i = k
    · exact Eventually.of_forall fun x h => absurd hik h
    · exact (h i k hik).mono fun x hx _ => hx
  filter_upwards [h2] with x hx i k hik
  by_contra hne
  exact hx i k hne hik

theorem lowest_unique {x : ι → X} (h : Function.Injective fun i => s (x i)) {S S' : Finset ι} (hcard : S.card = S'.card)
    (h1 : x ∈ Lowest s S) (h2 : x ∈ Lowest s S') : S = S' := by
  by_contra hne
  have n1 : ¬ S ⊆ S' := fun hsub => hne (Finset.eq_of_subset_of_card_le hsub hcard.ge)
  have n2 : ¬ S' ⊆ S := fun hsub => hne (Finset.eq_of_subset_of_card_le hsub hcard.le).symm
  obtain ⟨i, hi, hi'⟩ := Finset.not_subset.1 n1
  obtain ⟨l, hl, hl'⟩ := Finset.not_subset.1 n2
  have := h (le_antisymm (h1 i hi l hl') (h2 l hl i hi'))
  subst this
  exact hl' hi

/-- The expected variance of the values of `z` at the `q` individuals with the lowest scores. -/
theorem select_spread (hs : Measurable s) (hzm : Measurable z) (hz : MemLp z 2 ν) (huniv : NarrowOn ν z Set.univ)
    (hc : ∀ c, NarrowOn ν z {x | s x ≤ c}) (h0 : ∀ c, ν {x | s x = c} = 0) {q : ℕ} {Ω : Type} [MeasurableSpace Ω]
    {μ : Measure Ω} {T : Ω → ι → X} (hT : MeasurePreserving T μ (Measure.pi fun _ : ι => ν)) (F : Ω → ENNReal)
    (hF : ∀ ω, ∃ S : Finset ι, S.card = q ∧ T ω ∈ Lowest s S ∧ F ω ≤ ENNReal.ofReal (pairVar z S (T ω))) :
    ∫⁻ ω, F ω ∂μ ≤ ENNReal.ofReal (1 - 1 / q) := by
  have hL := lowest_measurable (ι := ι) hs
  have hpv : ∀ S : Finset ι, Measurable fun x : ι → X => pairVar z S x := by
    intro S
    unfold pairVar
    refine Measurable.div_const (Finset.measurable_fun_sum _ fun i _ => Finset.measurable_fun_sum _ fun k _ => ?_) _
    exact ((hzm.comp (measurable_pi_apply i)).sub (hzm.comp (measurable_pi_apply k))).pow_const 2
  have h1 : ∀ ω, F ω ≤ (fun x => ∑ S ∈ Finset.powersetCard q Finset.univ,
      (Lowest s S).indicator (fun x => ENNReal.ofReal (pairVar z S x)) x) (T ω) := by
    intro ω
    obtain ⟨S, hS, hx, hle⟩ := hF ω
    have hmem : S ∈ Finset.powersetCard q (Finset.univ : Finset ι) := Finset.mem_powersetCard.2 ⟨Finset.subset_univ _, hS⟩
    simp only
    refine le_trans ?_ (Finset.single_le_sum (f := fun S => (Lowest s S).indicator
      (fun x => ENNReal.ofReal (pairVar z S x)) (T ω)) (fun _ _ => zero_le) hmem)
    rw [Set.indicator_of_mem hx]
    exact hle
  refine (lintegral_mono h1).trans ?_
  rw [hT.lintegral_comp (Finset.measurable_fun_sum _ fun S _ => Measurable.indicator (hpv S).ennreal_ofReal (hL S))]
  rw [lintegral_finsetSum _ fun S _ => Measurable.indicator (hpv S).ennreal_ofReal (hL S)]
  have h2 : ∀ S ∈ Finset.powersetCard q (Finset.univ : Finset ι),
      ∫⁻ x, (Lowest s S).indicator (fun x => ENNReal.ofReal (pairVar z S x)) x ∂Measure.pi (fun _ : ι => ν) ≤
        ENNReal.ofReal (1 - 1 / q) * Measure.pi (fun _ : ι => ν) (Lowest s S) := by
    intro S hS
    have := low_spread hs hzm hz huniv hc S
    rwa [(Finset.mem_powersetCard.1 hS).2] at this
  refine (Finset.sum_le_sum h2).trans ?_
  rw [← Finset.mul_sum]
  refine mul_le_of_le_one_right' ?_
  have h3 : ∀ S : Finset ι, Measure.pi (fun _ : ι => ν) (Lowest s S) =
      ∫⁻ x, (Lowest s S).indicator 1 x ∂Measure.pi (fun _ : ι => ν) := fun S => (lintegral_indicator_one (hL S)).symm
  simp only [h3]
  rw [← lintegral_finsetSum _ fun S _ => measurable_one.indicator (hL S)]
  refine (lintegral_mono_ae (g := fun _ => 1) ?_).trans (by simp)
  filter_upwards [no_ties (ι := ι) hs h0] with x hx
  by_cases hex : ∃ S ∈ Finset.powersetCard q (Finset.univ : Finset ι), x ∈ Lowest s S
  · obtain ⟨S, hS, hxS⟩ := hex
    rw [Finset.sum_eq_single S]
    · rw [Set.indicator_of_mem hxS]; rfl
    · intro S' hS' hne
      refine Set.indicator_of_notMem (fun hx' => hne (lowest_unique hx ?_ hx' hxS)) _
      rw [(Finset.mem_powersetCard.1 hS).2, (Finset.mem_powersetCard.1 hS').2]
    · intro h; exact absurd hS h
  · rw [Finset.sum_eq_zero]
    · exact zero_le
    · intro S hS
      exact Set.indicator_of_notMem (fun hx' => hex ⟨S, hS, hx'⟩) _

/-- The same for a fixed set of individuals. -/
theorem fixed_spread (hzm : Measurable z) (hz : MemLp z 2 ν) (huniv : NarrowOn ν z Set.univ) {Ω : Type}
    [MeasurableSpace Ω] {μ : Measure Ω} {T : Ω → ι → X} (hT : MeasurePreserving T μ (Measure.pi fun _ : ι => ν))
    (S : Finset ι) (F : Ω → ENNReal) (hF : ∀ ω, F ω ≤ ENNReal.ofReal (pairVar z S (T ω))) :
    ∫⁻ ω, F ω ∂μ ≤ ENNReal.ofReal (1 - 1 / S.card) := by
  have hpv : Measurable fun x : ι → X => pairVar z S x := by
    unfold pairVar
    refine Measurable.div_const (Finset.measurable_fun_sum _ fun i _ => Finset.measurable_fun_sum _ fun k _ => ?_) _
    exact ((hzm.comp (measurable_pi_apply i)).sub (hzm.comp (measurable_pi_apply k))).pow_const 2
  refine (lintegral_mono hF).trans ?_
  rw [hT.lintegral_comp hpv.ennreal_ofReal]
  have huni : Lowest (fun _ : X => (0 : ℝ)) S = Set.univ := by
    ext x; simp [Lowest]
  have := low_spread (ι := ι) (s := fun _ => 0) measurable_const hzm hz huniv (fun c => by
    by_cases hc : (0 : ℝ) ≤ c
    · simpa [hc] using huniv
    · simp [hc, NarrowOn]) S
  rw [huni] at this
  simpa using this

end

end Verif
