/-
One generation: the expected variance of a variable among the selected individuals.
-/
import Verif.Lemmas.SlopePick
import Verif.Lemmas.ConvLearn
import Verif.Lemmas.NeutralGauss
import Verif.Lemmas.Equivariance

set_option linter.unusedSectionVars false

namespace Verif

open MeasureTheory ProbabilityTheory Spec

/-- The first rows of the draws of a generation are independent. -/
theorem rows_law (N : ℕ) : MeasurePreserving (fun (z : Draws ℝ) (i : Fin N) => z i) Spec.normalDraws
    (Measure.pi fun _ : Fin N => Verif.normalDraws) := by
  have hm : Measurable (fun (z : Draws ℝ) (i : Fin N) => z i) :=
    measurable_pi_iff.2 fun i => measurable_pi_apply _
  refine ⟨hm, (Measure.pi_eq fun s hs => ?_).symm⟩
  rw [Measure.map_apply hm (MeasurableSet.univ_pi hs)]
  let S : ℕ → Set (ℕ → ℝ) := fun i => if h : i < N then s ⟨i, h⟩ else Set.univ
  have hS : ∀ i, MeasurableSet (S i) := by
    intro i
    by_cases h : i < N
    · simp only [S, h, dif_pos]; exact hs _
    · simp only [S, h, dif_neg, not_false_eq_true, MeasurableSet.univ]
  have : (fun (z : Draws ℝ) (i : Fin N) => z i) ⁻¹' Set.univ.pi s = Set.pi (Finset.range N : Set ℕ) S := by
    ext z
    simp only [Set.mem_preimage, Set.mem_pi, Set.mem_univ, true_imp_iff, Finset.coe_range, Set.mem_Iio, S]
    constructor
    · intro h i hi
      rw [dif_pos hi]; exact h ⟨i, hi⟩
    · intro h i
      have := h i i.2
      rw [dif_pos i.2] at this; exact this
  rw [this, Spec.normalDraws, Measure.infinitePi_pi _ (fun i _ => hS i), Finset.prod_range]
  refine Finset.prod_congr rfl fun i _ => ?_
  simp only [S, i.2, dif_pos]
  rfl

/-- The variance of a list without repeated indices. -/
theorem pairVar_list {N : ℕ} {X : Type} (z : X → ℝ) (x : Fin N → X) {I : List (Fin N)} (hI : I.Nodup) (hne : I ≠ []) :
    pairVar z I.toFinset x = Spec.variance (I.map fun i => z (x i)) := by
  have hsum : ∀ f : Fin N → ℝ, ∑ i ∈ I.toFinset, f i = (I.map f).sum := fun f => List.sum_toFinset f hI
  have hcard : (I.toFinset.card : ℝ) = I.length := by rw [List.toFinset_card_of_nodup hI]
  have hl : (I.length : ℝ) ≠ 0 := by
    have := List.length_pos_iff.2 hne
    exact_mod_cast this.ne'
  rw [variance_moments (by simpa using hne)]
  unfold pairVar Spec.mean
  rw [hcard]
  have e : ∑ i ∈ I.toFinset, ∑ k ∈ I.toFinset, (z (x i) - z (x k)) ^ 2 =
      2 * I.length * ∑ i ∈ I.toFinset, z (x i) ^ 2 - 2 * (∑ i ∈ I.toFinset, z (x i)) ^ 2 := by
    have : ∀ i k, (z (x i) - z (x k)) ^ 2 = z (x i) ^ 2 - 2 * (z (x i) * z (x k)) + z (x k) ^ 2 := by
      intro i k; ring
    simp only [this, Finset.sum_add_distrib, Finset.sum_sub_distrib, Finset.sum_const, nsmul_eq_mul, hcard,
      ← Finset.mul_sum, ← Finset.sum_mul]
    ring
  rw [e, hsum, hsum, List.map_map, List.length_map]
  simp only [Function.comp_def]
  field_simp

/-- A generation sampled around `m` with deviations `d`. -/
def sampled (n N : ℕ) (m d : Fin n → ℝ) (z : Draws ℝ) : List (Fin n → ℝ) :=
  (List.range N).map fun i j => m j + d j * z i j

namespace PureRun
variable {n : ℕ} (p : PureRun n)

/-- The selected individuals of a list given by their positions. -/
theorem pick_positions (hs : IsArgsort p.srt) {q N : ℕ} (hqN : q ≤ N) (f : ℕ → Fin n → ℝ) :
    ∃ I : List (Fin N), I.Nodup ∧ I.length = q ∧
      p.pick q ((List.range N).map f) = I.map (fun i : Fin N => f i) ∧
      (∀ i ∈ I, ∀ l, l ∉ I → p.cost (f i) ≤ p.cost (f l)) ∧
      I.map Fin.val = (p.srt (((List.range N).map f).map p.cost)).take q := by
  set cs := ((List.range N).map f).map p.cost with hcs
  have hlen : cs.length = N := by simp [hcs]
  have hperm := hs.perm cs
  rw [hlen] at hperm
  have hmem : ∀ i ∈ p.srt cs, i < N := fun i hi => List.mem_range.1 (hperm.subset hi)
  have hmem' : ∀ i ∈ (p.srt cs).take q, i < N := fun i hi => hmem i (List.mem_of_mem_take hi)
  let I : List (Fin N) := ((p.srt cs).take q).pmap Fin.mk hmem'
  have hval : I.map Fin.val = (p.srt cs).take q := by
    simp only [I, List.map_pmap]
    exact (List.pmap_eq_map _).trans (List.map_id _)
  have hnd : ((p.srt cs).take q).Nodup := (hperm.nodup_iff.2 List.nodup_range).sublist (List.take_sublist _ _)
  have hcost : ∀ i : Fin N, cs[(i : ℕ)]? = some (p.cost (f i)) := by
    intro i; simp [hcs]
  refine ⟨I, ?_, ?_, ?_, ?_, hval⟩
  · rw [← hval] at hnd
    exact List.Nodup.of_map _ hnd
  · have := congrArg List.length hval
    rw [List.length_map, List.length_take, hperm.length_eq, List.length_range] at this
    omega
  · unfold pick sliceTo takeIdx
    rw [if_pos (by positivity), Int.toNat_natCast, ← hcs, ← hval, List.filterMap_map,
      ← congrFun (List.filterMap_eq_map (f := fun i : Fin N => f i)) I]
    refine List.filterMap_congr fun i _ => ?_
    simp
  · intro i hi l hl
    have hi' : (i : ℕ) ∈ (p.srt cs).take q := by rw [← hval]; exact List.mem_map_of_mem hi
    have hl' : (l : ℕ) ∈ (p.srt cs).drop q := by
      have h1 : (l : ℕ) ∈ p.srt cs := hperm.symm.subset (List.mem_range.2 l.2)
      rw [← List.take_append_drop q (p.srt cs), List.mem_append] at h1
      rcases h1 with h1 | h1
      · rw [← hval] at h1
        obtain ⟨a, ha, hal⟩ := List.mem_map.1 h1
        exact absurd (Fin.ext hal ▸ ha) hl
      · exact h1
    have hsrt := hs.sorted cs
    rw [← List.take_append_drop q (p.srt cs), List.pairwise_append] at hsrt
    have := (hsrt.2.2 _ hi' _ hl' _ _ (hcost i) (hcost l)).1
    simpa [PyCost.lt] using this

theorem draw_narrow (j : ℕ) : NarrowOn Verif.normalDraws (fun r => r j) Set.univ := by
  have h1 := (normal_expectation (j + 1)).var j (by omega)
  unfold normalMean at h1
  unfold NarrowOn
  simp only [Measure.restrict_univ, draw_mean, pow_two, h1]
  simp

/-- The selected values of a variable. -/
theorem picked_variance (hs : IsArgsort p.srt) {q N : ℕ} (hq : 1 ≤ q) (hqN : q ≤ N) (m d : Fin n → ℝ) (j : Fin n)
    (z : Draws ℝ) : ∃ I : List (Fin N), I.Nodup ∧ I.length = q ∧
      (∀ i ∈ I, ∀ l, l ∉ I → p.cost (fun k => m k + d k * z i k) ≤ p.cost (fun k => m k + d k * z l k)) ∧
      I.map Fin.val = (p.srt ((sampled n N m d z).map p.cost)).take q ∧
      Spec.variance ((p.pick q (sampled n N m d z)).map fun r => r j) =
        d j ^ 2 * pairVar (fun r : ℕ → ℝ => r j) I.toFinset (fun i : Fin N => z i) := by
  obtain ⟨I, h1, h2, h3, h4, h5⟩ := p.pick_positions hs hqN fun i k => m k + d k * z i k
  have hne : I ≠ [] := by rintro rfl; simp at h2; omega
  refine ⟨I, h1, h2, h4, h5, ?_⟩
  unfold sampled
  rw [h3, pairVar_list _ _ h1 hne, List.map_map]
  have := variance_affine (l := I.map fun i : Fin N => z i j) (by simpa using hne) (d j) (m j)
  rw [List.map_map] at this
  rw [pow_two, ← this]
  congr 1
  refine List.map_congr_left fun i _ => ?_
  simp only [Function.comp]
  ring

/-- With a fixed set of selected positions. -/
theorem fixed_pick (hs : IsArgsort p.srt) {q N : ℕ} (hq : 1 ≤ q) (hqN : q ≤ N) (m d : Fin n → ℝ) (j : Fin n)
    (S : Finset (Fin N)) (hS : ∀ (z : Draws ℝ) (I : List (Fin N)), I.Nodup → I.length = q →
      I.map Fin.val = (p.srt ((sampled n N m d z).map p.cost)).take q → I.toFinset = S) :
    ∫⁻ z, ENNReal.ofReal (Spec.variance ((p.pick q (sampled n N m d z)).map fun r => r j)) ∂Spec.normalDraws ≤
      ENNReal.ofReal ((1 - 1 / q) * d j ^ 2) := by
  have hcard : S.card = q := by
    obtain ⟨I, h1, h2, _, h4, _⟩ := p.picked_variance hs hq hqN m d j fun _ _ => 0
    rw [← hS _ I h1 h2 h4, List.toFinset_card_of_nodup h1, h2]
  have hF : ∀ z, ENNReal.ofReal (Spec.variance ((p.pick q (sampled n N m d z)).map fun r => r j)) =
      ENNReal.ofReal (d j ^ 2) * ENNReal.ofReal (pairVar (fun r : ℕ → ℝ => r j) S (fun i : Fin N => z i)) := by
    intro z
    obtain ⟨I, h1, h2, _, h4, h5⟩ := p.picked_variance hs hq hqN m d j z
    rw [h5, hS z I h1 h2 h4, ENNReal.ofReal_mul (sq_nonneg _)]
  simp only [hF]
  rw [lintegral_const_mul' _ _ ENNReal.ofReal_ne_top, mul_comm (1 - 1 / (q : ℝ)), ENNReal.ofReal_mul (sq_nonneg _)]
  gcongr
  rw [← hcard]
  exact fixed_spread (measurable_pi_apply (j : ℕ)) (draw_memLp j) (draw_narrow j) (rows_law N) S _ fun _ => le_rfl

/-- All individuals are selected: any cost function. -/
theorem all_spread (hs : IsArgsort p.srt) {N : ℕ} (hN : 1 ≤ N) (m d : Fin n → ℝ) (j : Fin n) :
    ∫⁻ z, ENNReal.ofReal (Spec.variance ((p.pick N (sampled n N m d z)).map fun r => r j)) ∂Spec.normalDraws ≤
      ENNReal.ofReal ((1 - 1 / N) * d j ^ 2) := by
  refine p.fixed_pick hs hN le_rfl m d j Finset.univ fun z I h1 h2 _ => ?_
  refine Finset.eq_univ_of_card _ ?_
  rw [List.toFinset_card_of_nodup h1, h2, Fintype.card_fin]

/-- The cost function is a slope: increasing in a linear function of the variables. -/
theorem slope_spread (hs : IsArgsort p.srt) {q N : ℕ} (hq : 1 ≤ q) (hqN : q ≤ N) {a : Fin n → ℝ} {φ : ℝ → ℝ}
    (hφ : StrictMono φ) (hcost : ∀ x, p.cost x = φ (∑ j, a j * x j)) (m d : Fin n → ℝ) (j : Fin n) :
    ∫⁻ z, ENNReal.ofReal (Spec.variance ((p.pick q (sampled n N m d z)).map fun r => r j)) ∂Spec.normalDraws ≤
      ENNReal.ofReal ((1 - 1 / q) * d j ^ 2) := by
  set v : ℝ := ∑ k, (a k * d k) ^ 2 with hv
  have hv0 : 0 ≤ v := Finset.sum_nonneg fun _ _ => sq_nonneg _
  rcases hv0.eq_or_lt with h0 | hpos
  · have hz : ∀ k, a k * d k = 0 := by
      intro k
      have := (Finset.sum_eq_zero_iff_of_nonneg (fun _ _ => sq_nonneg _)).1 h0.symm k (Finset.mem_univ k)
      exact pow_eq_zero_iff (two_ne_zero) |>.1 this
    have hc : ∀ (z : Draws ℝ), (sampled n N m d z).map p.cost = List.replicate N (φ (∑ k, a k * m k)) := by
      intro z
      rw [List.eq_replicate_iff]
      refine ⟨by simp [sampled], fun c hc => ?_⟩
      obtain ⟨r, hr, rfl⟩ := List.mem_map.1 hc
      obtain ⟨i, _, rfl⟩ := List.mem_map.1 hr
      rw [hcost]
      congr 1
      refine Finset.sum_congr rfl fun k _ => ?_
      rw [mul_add, ← mul_assoc, hz k]; ring
    obtain ⟨I0, _, _, _, g4, _⟩ := p.picked_variance hs hq hqN m d j fun _ _ => 0
    refine p.fixed_pick hs hq hqN m d j I0.toFinset fun z I _ _ h3 => ?_
    rw [hc, ← hc (fun _ _ => 0), ← g4] at h3
    rw [List.map_injective_iff.2 Fin.val_injective h3]
  set σ : ℝ := Real.sqrt v with hσ
  have hσ0 : 0 < σ := Real.sqrt_pos.2 hpos
  let b : ℕ → ℝ := fun k => if h : k < n then a ⟨k, h⟩ * d ⟨k, h⟩ / σ else 0
  have hbk : ∀ k : Fin n, b k = a k * d k / σ := by
    intro k; simp only [b, k.2, dif_pos]
  have hb : ∑ k ∈ Finset.range n, b k ^ 2 = 1 := by
    rw [← Fin.sum_univ_eq_sum_range (fun k => b k ^ 2)]
    simp only [hbk, div_pow, ← Finset.sum_div]
    rw [← hv, hσ, Real.sq_sqrt hv0, div_self hpos.ne']
  have hscore : ∀ (r : ℕ → ℝ), ∑ k, a k * (m k + d k * r k) = ∑ k, a k * m k + σ * affine n 0 b r := by
    intro r
    unfold affine
    rw [zero_add, ← Fin.sum_univ_eq_sum_range (fun k => r k * b k), Finset.mul_sum, ← Finset.sum_add_distrib]
    refine Finset.sum_congr rfl fun k _ => ?_
    rw [hbk]; field_simp
  have hatoms : ∀ c, Verif.normalDraws {r | affine n 0 b r = c} = 0 := by
    intro c
    have : {r : ℕ → ℝ | affine n 0 b r = c} = affine n 0 b ⁻¹' {c} := rfl
    rw [this, (affine_law n hb).measure_preimage (measurableSet_singleton c).nullMeasurableSet]
    have := nullSingletonClass_gaussianReal (μ := 0) (v := 1) one_ne_zero
    exact measure_singleton c
  choose I h1 h2 h3 h4 h5 using fun z => p.picked_variance hs hq hqN m d j z
  have hF : ∀ z, ENNReal.ofReal (Spec.variance ((p.pick q (sampled n N m d z)).map fun r => r j)) =
      ENNReal.ofReal (d j ^ 2) *
        ENNReal.ofReal (pairVar (fun r : ℕ → ℝ => r j) (I z).toFinset (fun i : Fin N => z i)) := by
    intro z
    rw [h5, ENNReal.ofReal_mul (sq_nonneg _)]
  simp only [hF]
  rw [lintegral_const_mul' _ _ ENNReal.ofReal_ne_top, mul_comm (1 - 1 / (q : ℝ)), ENNReal.ofReal_mul (sq_nonneg _)]
  gcongr
  refine select_spread (measurable_affine n 0 b) (measurable_pi_apply (j : ℕ)) (draw_memLp j) (draw_narrow j)
    (fun c => half_space hb j.2 c) hatoms (rows_law N) _ fun z => ⟨(I z).toFinset, ?_, ?_, le_rfl⟩
  · rw [List.toFinset_card_of_nodup (h1 z), h2]
  · intro i hi l hl
    rw [List.mem_toFinset] at hi hl
    have := h3 z i hi l hl
    rw [hcost, hcost, hφ.le_iff_le, hscore, hscore] at this
    exact le_of_mul_le_mul_left (by linarith) hσ0

end PureRun

end Verif
