/-
The mean and the variance of a fixed choice of independent standard normal draws, scaled by a deviation
that only depends on earlier draws.
-/
import Verif.Lemmas.Neutral
import Verif.Lemmas.Gauss
import Mathlib.Probability.Distributions.Gaussian.Real
import Mathlib.Probability.Independence.Integration

set_option linter.unusedSectionVars false

namespace Verif

open MeasureTheory ProbabilityTheory Spec

/-- Independent standard normal draws, one for each cell. -/
noncomputable def Spec.normalCells : Measure (ℕ × ℕ → ℝ) := Measure.infinitePi (fun _ => gaussianReal 0 1)

instance normalCells_isProb : IsProbabilityMeasure normalCells := by unfold normalCells; infer_instance

/-- Functions of different cells are independent. -/
theorem normalCells_indep {A B : Finset (ℕ × ℕ)} (hAB : Disjoint A B) {P Q : (ℕ × ℕ → ℝ) → ℝ}
    (hP : Measurable P) (hQ : Measurable Q) (hdP : DependsOn P (A : Set (ℕ × ℕ)))
    (hdQ : DependsOn Q (B : Set (ℕ × ℕ))) : IndepFun P Q normalCells := by
  classical
  have hI : iIndepFun (fun (x : ℕ × ℕ) (u : ℕ × ℕ → ℝ) => u x) normalCells :=
    iIndepFun_infinitePi (P := fun _ : ℕ × ℕ => gaussianReal 0 1) (X := fun _ v => v)
      (fun _ => measurable_id)
  have h := hI.indepFun_finset A B hAB (fun x => measurable_pi_apply x)
  let ext : (D : Finset (ℕ × ℕ)) → (D → ℝ) → (ℕ × ℕ → ℝ) := fun D v x => if hx : x ∈ D then v ⟨x, hx⟩ else 0
  have hext : ∀ D, Measurable (ext D) := by
    intro D
    refine measurable_pi_lambda _ fun x => ?_
    by_cases hx : x ∈ D
    · simp only [ext, hx, dite_true]; exact measurable_pi_apply _
    · simp only [ext, hx, dite_false]; exact measurable_const
  have h2 := h.comp (φ := P ∘ ext A) (ψ := Q ∘ ext B) (hP.comp (hext A)) (hQ.comp (hext B))
  have e1 : ∀ (D : Finset (ℕ × ℕ)) (F : (ℕ × ℕ → ℝ) → ℝ), DependsOn F (D : Set (ℕ × ℕ)) →
      (F ∘ ext D) ∘ (fun u (x : D) => u x) = F := by
    intro D F hF
    funext u
    refine hF fun x hx => ?_
    have hx : x ∈ D := hx
    simp [ext, hx]
  rw [e1 A P hdP, e1 B Q hdQ] at h2
  exact h2

theorem cell_law (a : ℕ × ℕ) :
    MeasurePreserving (fun u : ℕ × ℕ → ℝ => u a) normalCells (gaussianReal 0 1) :=
  measurePreserving_eval_infinitePi (fun _ : ℕ × ℕ => gaussianReal 0 1) a

theorem cell_memLp (a : ℕ × ℕ) : MemLp (fun u : ℕ × ℕ → ℝ => u a) 2 normalCells :=
  (memLp_id_gaussianReal (μ := 0) (v := 1) 2).comp_measurePreserving (cell_law a)

theorem cell_integrable (a : ℕ × ℕ) : Integrable (fun u : ℕ × ℕ → ℝ => u a) normalCells :=
  (cell_memLp a).integrable (by norm_num)

theorem cell_mean (a : ℕ × ℕ) : ∫ u, u a ∂normalCells = 0 := by
  have := integral_map (μ := normalCells) (φ := fun u : ℕ × ℕ → ℝ => u a) (f := fun x : ℝ => x)
    (cell_law a).measurable.aemeasurable measurable_id.aestronglyMeasurable
  rw [← this, (cell_law a).map_eq, integral_id_gaussianReal]

theorem cell_mul_integrable (a b : ℕ × ℕ) : Integrable (fun u : ℕ × ℕ → ℝ => u a * u b) normalCells :=
  (cell_memLp a).integrable_mul (cell_memLp b)

theorem cell_mul (a b : ℕ × ℕ) : ∫ u, u a * u b ∂normalCells = if a = b then 1 else 0 := by
  split
  · rename_i h
    subst h
    have := integral_map (μ := normalCells) (φ := fun u : ℕ × ℕ → ℝ => u a) (f := fun x : ℝ => x * x)
      (cell_law a).measurable.aemeasurable (measurable_id.mul measurable_id).aestronglyMeasurable
    rw [← this, (cell_law a).map_eq]
    have h := variance_id_gaussianReal (μ := 0) (v := 1)
    rw [variance_eq_sub (memLp_id_gaussianReal 2)] at h
    simpa [pow_two, integral_id_gaussianReal] using h
  · rename_i h
    have hi : IndepFun (fun u : ℕ × ℕ → ℝ => u a) (fun u => u b) normalCells :=
      normalCells_indep (A := {a}) (B := {b}) (by simpa using fun h' => h h')
        (measurable_pi_apply a) (measurable_pi_apply b) (fun u v huv => huv a (by simp))
        (fun u v huv => huv b (by simp))
    rw [hi.integral_fun_mul_eq_mul_integral (measurable_pi_apply a).aestronglyMeasurable
      (measurable_pi_apply b).aestronglyMeasurable, cell_mean, zero_mul]

/-- A weighted sum of the entries of a list. -/
noncomputable def wsum (w : ℕ → ℝ) (l : List ℝ) : ℝ := ∑ i ∈ Finset.range l.length, w i * l.getD i 0

/-- The draws of the individuals `idx` in generation `t`. -/
def cellDraws (t : ℕ) (idx : List ℕ) (u : ℕ × ℕ → ℝ) : List ℝ := idx.map (fun i => u (t, i))

section
variable {t : ℕ} {idx : List ℕ} {w : ℕ → ℝ}

theorem wsum_draws (u : ℕ × ℕ → ℝ) :
    wsum w (cellDraws t idx u) = ∑ i ∈ Finset.range idx.length, w i * u (t, idx.getD i 0) := by
  unfold wsum cellDraws
  rw [List.length_map]
  refine Finset.sum_congr rfl fun i hi => ?_
  have hi := Finset.mem_range.1 hi
  simp [List.getD_eq_getElem?_getD, hi]

theorem wsum_measurable : Measurable (fun u => wsum w (cellDraws t idx u)) := by
  simp only [wsum_draws]
  exact Finset.measurable_sum _ fun i _ => measurable_const.mul (measurable_pi_apply _)

theorem wsum_memLp : MemLp (fun u => wsum w (cellDraws t idx u)) 2 normalCells := by
  simp only [wsum_draws]
  exact memLp_finsetSum _ fun i _ => (cell_memLp _).const_mul (w i)

theorem wsum_mean : ∫ u, wsum w (cellDraws t idx u) ∂normalCells = 0 := by
  simp only [wsum_draws]
  rw [integral_finsetSum _ fun i _ => (cell_integrable _).const_mul (w i)]
  refine Finset.sum_eq_zero fun i _ => ?_
  rw [integral_const_mul, cell_mean, mul_zero]

theorem getD_inj (hnd : idx.Nodup) {i k : ℕ} (hi : i < idx.length) (hk : k < idx.length) :
    ((t, idx.getD i 0) = (t, idx.getD k 0)) ↔ i = k := by
  simp only [Prod.mk.injEq, true_and, List.getD_eq_getElem?_getD, List.getElem?_eq_getElem hi,
    List.getElem?_eq_getElem hk, Option.getD_some]
  exact hnd.getElem_inj_iff

theorem wsum_square (hnd : idx.Nodup) : ∫ u, wsum w (cellDraws t idx u) ^ 2 ∂normalCells =
    ∑ i ∈ Finset.range idx.length, w i ^ 2 := by
  have e : ∀ u, wsum w (cellDraws t idx u) ^ 2 = ∑ i ∈ Finset.range idx.length,
      ∑ k ∈ Finset.range idx.length, w i * w k * (u (t, idx.getD i 0) * u (t, idx.getD k 0)) := by
    intro u
    rw [wsum_draws, sq, Finset.sum_mul_sum]
    refine Finset.sum_congr rfl fun i _ => Finset.sum_congr rfl fun k _ => ?_
    ring
  simp only [e]
  rw [integral_finsetSum _ fun i _ => integrable_finsetSum _ fun k _ =>
    (cell_mul_integrable _ _).const_mul _]
  refine Finset.sum_congr rfl fun i hi => ?_
  rw [integral_finsetSum _ fun k _ => (cell_mul_integrable _ _).const_mul _]
  rw [Finset.sum_eq_single i]
  · rw [integral_const_mul, cell_mul, if_pos rfl]; ring
  · intro k hk hki
    rw [integral_const_mul, cell_mul, if_neg, mul_zero]
    rw [getD_inj hnd (Finset.mem_range.1 hi) (Finset.mem_range.1 hk)]
    exact fun h => hki h.symm
  · intro h; exact absurd hi h

/-- The variance as mean square minus square of the mean. -/
theorem variance_moments {l : List ℝ} (h : l ≠ []) :
    Spec.variance l = (l.map (fun x => x ^ 2)).sum / l.length - Spec.mean l ^ 2 := by
  have hl : (l.length : ℝ) ≠ 0 := by
    have := List.length_pos_iff.2 h
    exact_mod_cast this.ne'
  have e : ∀ (m : List ℝ) (c : ℝ), (m.map (fun x => (x - c) ^ 2)).sum =
      (m.map (fun x => x ^ 2)).sum - 2 * c * m.sum + m.length * c ^ 2 := by
    intro m c
    induction m with
    | nil => simp
    | cons a m ih =>
      simp only [List.map_cons, List.sum_cons, ih, List.length_cons, Nat.cast_add, Nat.cast_one]
      ring
  unfold Spec.variance
  rw [Spec.mean, e, List.length_map]
  have hs : l.sum = Spec.mean l * l.length := by unfold Spec.mean; field_simp
  rw [hs]
  field_simp
  ring

theorem mean_wsum (l : List ℝ) : Spec.mean l = wsum (fun _ => 1 / (l.length : ℝ)) l := by
  unfold Spec.mean wsum
  rw [← Finset.mul_sum]
  have : l.sum = ∑ i ∈ Finset.range l.length, l.getD i 0 := by
    induction l with
    | nil => simp
    | cons a l ih =>
      rw [List.sum_cons, List.length_cons, Finset.sum_range_succ', ih]
      simp [add_comm]
  rw [this]
  ring

theorem squares_eq (u : ℕ × ℕ → ℝ) : ((cellDraws t idx u).map (fun x => x ^ 2)).sum =
    (idx.map (fun i => u (t, i) * u (t, i))).sum := by
  unfold cellDraws
  rw [List.map_map]
  congr 1
  exact List.map_congr_left fun i _ => by simp [sq]

theorem squares_integrable (t : ℕ) (idx : List ℕ) :
    Integrable (fun u : ℕ × ℕ → ℝ => (idx.map (fun i => u (t, i) * u (t, i))).sum) normalCells := by
  induction idx with
  | nil => simp
  | cons i idx ih =>
    simp only [List.map_cons, List.sum_cons]
    exact (cell_mul_integrable _ _).add ih

theorem squares_mean (t : ℕ) (idx : List ℕ) :
    ∫ u, (idx.map (fun i => u (t, i) * u (t, i))).sum ∂normalCells = idx.length := by
  induction idx with
  | nil => simp
  | cons i idx ih =>
    simp only [List.map_cons, List.sum_cons]
    rw [integral_add (cell_mul_integrable _ _) (squares_integrable t idx), ih, cell_mul, if_pos rfl]
    simp [add_comm]

theorem cellDraws_length (u : ℕ × ℕ → ℝ) : (cellDraws t idx u).length = idx.length := by simp [cellDraws]

theorem variance_draws (hne : idx ≠ []) (u : ℕ × ℕ → ℝ) : Spec.variance (cellDraws t idx u) =
    (idx.map (fun i => u (t, i) * u (t, i))).sum / idx.length -
      wsum (fun _ => 1 / (idx.length : ℝ)) (cellDraws t idx u) ^ 2 := by
  rw [variance_moments (by simpa [cellDraws] using hne), squares_eq, mean_wsum, cellDraws_length]

theorem variance_measurable (hne : idx ≠ []) : Measurable (fun u => Spec.variance (cellDraws t idx u)) := by
  simp only [variance_draws hne]
  refine Measurable.sub (Measurable.div_const ?_ _) (wsum_measurable.pow_const 2)
  clear hne
  induction idx with
  | nil => simp
  | cons i idx ih =>
    simp only [List.map_cons, List.sum_cons]
    exact ((measurable_pi_apply _).mul (measurable_pi_apply _)).add ih

theorem variance_integrable (hne : idx ≠ []) :
    Integrable (fun u => Spec.variance (cellDraws t idx u)) normalCells := by
  simp only [variance_draws hne]
  exact ((squares_integrable t idx).div_const _).sub wsum_memLp.integrable_sq

/-- The expected variance of `k` independent standard normal draws is `1 - 1 / k`. -/
theorem variance_mean (hne : idx ≠ []) (hnd : idx.Nodup) :
    ∫ u, Spec.variance (cellDraws t idx u) ∂normalCells = 1 - 1 / (idx.length : ℝ) := by
  simp only [variance_draws hne]
  have hl : (idx.length : ℝ) ≠ 0 := by
    have := List.length_pos_iff.2 hne
    exact_mod_cast this.ne'
  rw [integral_sub ((squares_integrable t idx).div_const _) wsum_memLp.integrable_sq, integral_div,
    squares_mean, wsum_square hnd]
  simp only [Finset.sum_const, Finset.card_range, nsmul_eq_mul]
  field_simp

/-! ### One generation -/

variable {size : ℕ} {M D : (ℕ × ℕ → ℝ) → ℝ}

/-- The cells of the individuals `idx` of generation `t`. -/
def cellsOf (t : ℕ) (idx : List ℕ) : Finset (ℕ × ℕ) := {t} ×ˢ idx.toFinset

theorem early_disjoint : Disjoint (early size t) (cellsOf t idx) := by
  rw [Finset.disjoint_left]
  intro x hx hy
  simp only [early, cellsOf, Finset.mem_product, Finset.mem_range, Finset.mem_singleton] at hx hy
  omega

theorem cellDraws_depends (F : List ℝ → ℝ) :
    DependsOn (fun u => F (cellDraws t idx u)) (cellsOf t idx : Set (ℕ × ℕ)) := by
  intro u v huv
  have : cellDraws t idx u = cellDraws t idx v := by
    unfold cellDraws
    refine List.map_congr_left fun i hi => huv _ ?_
    simp [cellsOf, hi]
  simp only [this]

theorem indep_draws {P : (ℕ × ℕ → ℝ) → ℝ} (hP : Measurable P)
    (hd : DependsOn P (early size t : Set (ℕ × ℕ))) {F : List ℝ → ℝ}
    (hF : Measurable (fun u => F (cellDraws t idx u))) :
    IndepFun P (fun u => F (cellDraws t idx u)) normalCells :=
  normalCells_indep early_disjoint hP hF hd (cellDraws_depends F)

/-- The new location: the old one plus the deviation times a weighted mean of the draws. -/
noncomputable def nextLoc (t : ℕ) (idx : List ℕ) (w : ℕ → ℝ) (M D : (ℕ × ℕ → ℝ) → ℝ) (u : ℕ × ℕ → ℝ) : ℝ :=
  M u + D u * wsum w (cellDraws t idx u)

/-- The new deviation, at least `lb`. -/
noncomputable def nextDev (t : ℕ) (idx : List ℕ) (lb : ℝ) (D : (ℕ × ℕ → ℝ) → ℝ) (u : ℕ × ℕ → ℝ) : ℝ :=
  max (Real.sqrt (D u ^ 2 * Spec.variance (cellDraws t idx u))) lb

theorem early_mono {F : (ℕ × ℕ → ℝ) → ℝ} (hd : DependsOn F (early size t : Set (ℕ × ℕ))) :
    DependsOn F (early size (t + 1) : Set (ℕ × ℕ)) := fun u v huv => hd fun x hx => huv x (by
  simp only [early, Finset.coe_product, Finset.coe_range, Set.mem_prod, Set.mem_Iio] at hx ⊢
  omega)

theorem draws_early (F : List ℝ → ℝ) (hidx : ∀ i ∈ idx, i < size) :
    DependsOn (fun u => F (cellDraws t idx u)) (early size (t + 1) : Set (ℕ × ℕ)) := fun u v huv =>
  cellDraws_depends F fun x hx => huv x (by
    simp only [cellsOf, Finset.coe_product, Finset.coe_singleton, Set.mem_prod, Set.mem_singleton_iff,
      List.coe_toFinset] at hx
    simp only [early, Finset.coe_product, Finset.coe_range, Set.mem_prod, Set.mem_Iio]
    exact ⟨by have := hx.1; omega, hidx _ hx.2⟩)

theorem nextLoc_measurable (hM : Measurable M) (hD : Measurable D) : Measurable (nextLoc t idx w M D) :=
  hM.add (hD.mul wsum_measurable)

theorem nextLoc_depends (hM : DependsOn M (early size t : Set (ℕ × ℕ)))
    (hD : DependsOn D (early size t : Set (ℕ × ℕ))) (hidx : ∀ i ∈ idx, i < size) :
    DependsOn (nextLoc t idx w M D) (early size (t + 1) : Set (ℕ × ℕ)) := by
  intro u v huv
  unfold nextLoc
  have h3 : wsum w (cellDraws t idx u) = wsum w (cellDraws t idx v) := draws_early (wsum w) hidx huv
  rw [early_mono hM huv, early_mono hD huv, h3]

theorem nextDev_measurable {lb : ℝ} (hD : Measurable D) (hne : idx ≠ []) :
    Measurable (nextDev t idx lb D) :=
  (Real.continuous_sqrt.measurable.comp ((hD.pow_const 2).mul (variance_measurable hne))).max measurable_const

theorem nextDev_depends {lb : ℝ} (hD : DependsOn D (early size t : Set (ℕ × ℕ)))
    (hidx : ∀ i ∈ idx, i < size) :
    DependsOn (nextDev t idx lb D) (early size (t + 1) : Set (ℕ × ℕ)) := by
  intro u v huv
  unfold nextDev
  have h3 : Spec.variance (cellDraws t idx u) = Spec.variance (cellDraws t idx v) :=
    draws_early Spec.variance hidx huv
  rw [early_mono hD huv, h3]

/-- The square of the deviation before the floor. -/
theorem scaled_integrable (hD : Measurable D) (hd : DependsOn D (early size t : Set (ℕ × ℕ)))
    (h2 : MemLp D 2 normalCells) (hne : idx ≠ []) :
    Integrable (fun u => D u ^ 2 * Spec.variance (cellDraws t idx u)) normalCells := by
  have hi : IndepFun (fun u => D u ^ 2) (fun u => Spec.variance (cellDraws t idx u)) normalCells :=
    indep_draws (size := size) (hD.pow_const 2) (fun u v huv => by simp only [hd huv]) (variance_measurable hne)
  exact hi.integrable_mul h2.integrable_sq (variance_integrable hne)

theorem scaled_mean (hD : Measurable D) (hd : DependsOn D (early size t : Set (ℕ × ℕ)))
    (hne : idx ≠ []) (hnd : idx.Nodup) :
    ∫ u, D u ^ 2 * Spec.variance (cellDraws t idx u) ∂normalCells =
      (1 - 1 / (idx.length : ℝ)) * ∫ u, D u ^ 2 ∂normalCells := by
  have hi : IndepFun (fun u => D u ^ 2) (fun u => Spec.variance (cellDraws t idx u)) normalCells :=
    indep_draws (size := size) (hD.pow_const 2) (fun u v huv => by simp only [hd huv]) (variance_measurable hne)
  rw [hi.integral_fun_mul_eq_mul_integral (hD.pow_const 2).aestronglyMeasurable
    (variance_measurable hne).aestronglyMeasurable, variance_mean hne hnd, mul_comm]

theorem nextDev_sq {lb : ℝ} (u : ℕ × ℕ → ℝ) :
    D u ^ 2 * Spec.variance (cellDraws t idx u) ≤ nextDev t idx lb D u ^ 2 ∧
    nextDev t idx lb D u ^ 2 ≤ D u ^ 2 * Spec.variance (cellDraws t idx u) + max lb 0 ^ 2 ∧
    0 ≤ nextDev t idx lb D u := by
  have hv : 0 ≤ D u ^ 2 * Spec.variance (cellDraws t idx u) := mul_nonneg (sq_nonneg _) (variance_nonneg _)
  have hs := Real.sq_sqrt hv
  have h0 := Real.sqrt_nonneg (D u ^ 2 * Spec.variance (cellDraws t idx u))
  unfold nextDev
  refine ⟨?_, ?_, h0.trans (le_max_left _ _)⟩
  · rw [← hs, Real.sqrt_sq h0]
    exact pow_le_pow_left₀ h0 (le_max_left _ _) 2
  · rcases le_total lb (Real.sqrt (D u ^ 2 * Spec.variance (cellDraws t idx u))) with h | h
    · rw [max_eq_left h, hs]; linarith [sq_nonneg (max lb 0)]
    · rw [max_eq_right h, max_eq_left (h0.trans h)]; linarith

theorem nextDev_memLp {lb : ℝ} (hD : Measurable D) (hd : DependsOn D (early size t : Set (ℕ × ℕ)))
    (h2 : MemLp D 2 normalCells) (hne : idx ≠ []) : MemLp (nextDev t idx lb D) 2 normalCells := by
  rw [memLp_two_iff_integrable_sq (nextDev_measurable hD hne).aestronglyMeasurable]
  refine Integrable.mono' ((scaled_integrable hD hd h2 hne).add (integrable_const (max lb 0 ^ 2)))
    ((nextDev_measurable hD hne).pow_const 2).aestronglyMeasurable (Filter.Eventually.of_forall fun u => ?_)
  rw [Real.norm_of_nonneg (sq_nonneg _)]
  exact (nextDev_sq u).2.1

theorem nextDev_bounds {lb : ℝ} (hD : Measurable D) (hd : DependsOn D (early size t : Set (ℕ × ℕ)))
    (h2 : MemLp D 2 normalCells) (hne : idx ≠ []) (hnd : idx.Nodup) :
    (1 - 1 / (idx.length : ℝ)) * ∫ u, D u ^ 2 ∂normalCells ≤ ∫ u, nextDev t idx lb D u ^ 2 ∂normalCells ∧
    ∫ u, nextDev t idx lb D u ^ 2 ∂normalCells ≤
      (1 - 1 / (idx.length : ℝ)) * ∫ u, D u ^ 2 ∂normalCells + max lb 0 ^ 2 := by
  have hi := (nextDev_memLp (lb := lb) hD hd h2 hne).integrable_sq
  rw [← scaled_mean hD hd hne hnd]
  constructor
  · exact integral_mono (scaled_integrable hD hd h2 hne) hi fun u => (nextDev_sq u).1
  · have : max lb 0 ^ 2 = ∫ _u : ℕ × ℕ → ℝ, max lb 0 ^ 2 ∂normalCells := by simp
    rw [this, ← integral_add (scaled_integrable hD hd h2 hne) (integrable_const _)]
    exact integral_mono hi ((scaled_integrable hD hd h2 hne).add (integrable_const _)) fun u =>
      (nextDev_sq u).2.1

theorem step_memLp (hD : Measurable D) (hd : DependsOn D (early size t : Set (ℕ × ℕ)))
    (h2 : MemLp D 2 normalCells) : MemLp (fun u => D u * wsum w (cellDraws t idx u)) 2 normalCells := by
  have hm : Measurable (fun u => D u * wsum w (cellDraws t idx u)) := hD.mul wsum_measurable
  rw [memLp_two_iff_integrable_sq hm.aestronglyMeasurable]
  have hi : IndepFun (fun u => D u ^ 2) (fun u => wsum w (cellDraws t idx u) ^ 2) normalCells :=
    indep_draws (size := size) (F := fun l => wsum w l ^ 2) (hD.pow_const 2) (fun u v huv => by simp only [hd huv])
      (wsum_measurable.pow_const 2)
  have := hi.integrable_mul h2.integrable_sq wsum_memLp.integrable_sq
  refine this.congr (Filter.Eventually.of_forall fun u => ?_)
  simp [mul_pow]

theorem nextLoc_memLp (hM2 : MemLp M 2 normalCells) (hD : Measurable D)
    (hd : DependsOn D (early size t : Set (ℕ × ℕ))) (h2 : MemLp D 2 normalCells) :
    MemLp (nextLoc t idx w M D) 2 normalCells := hM2.add (step_memLp hD hd h2)

/-- The location is a martingale. -/
theorem nextLoc_mean (hM2 : MemLp M 2 normalCells) (hD : Measurable D)
    (hd : DependsOn D (early size t : Set (ℕ × ℕ))) (h2 : MemLp D 2 normalCells) :
    ∫ u, nextLoc t idx w M D u ∂normalCells = ∫ u, M u ∂normalCells := by
  unfold nextLoc
  rw [integral_add (hM2.integrable (by norm_num)) ((step_memLp hD hd h2).integrable (by norm_num)),
    (indep_draws (size := size) (F := wsum w) hD hd wsum_measurable).integral_fun_mul_eq_mul_integral
      hD.aestronglyMeasurable wsum_measurable.aestronglyMeasurable, wsum_mean, mul_zero, add_zero]

/-- The second moment of the location grows. -/
theorem nextLoc_square (hM : Measurable M) (hdM : DependsOn M (early size t : Set (ℕ × ℕ)))
    (hM2 : MemLp M 2 normalCells) (hD : Measurable D)
    (hd : DependsOn D (early size t : Set (ℕ × ℕ))) (h2 : MemLp D 2 normalCells) (hnd : idx.Nodup) :
    ∫ u, nextLoc t idx w M D u ^ 2 ∂normalCells = ∫ u, M u ^ 2 ∂normalCells +
      (∑ i ∈ Finset.range idx.length, w i ^ 2) * ∫ u, D u ^ 2 ∂normalCells := by
  have e : ∀ u, nextLoc t idx w M D u ^ 2 = M u ^ 2 + (2 * ((M u * D u) * wsum w (cellDraws t idx u)) +
      D u ^ 2 * wsum w (cellDraws t idx u) ^ 2) := by
    intro u; unfold nextLoc; ring
  have i1 : IndepFun (fun u => M u * D u) (fun u => wsum w (cellDraws t idx u)) normalCells :=
    indep_draws (size := size) (F := wsum w) (hM.mul hD)
      (fun u v huv => by show M u * D u = M v * D v; rw [hdM huv, hd huv]) wsum_measurable
  have i2 : IndepFun (fun u => D u ^ 2) (fun u => wsum w (cellDraws t idx u) ^ 2) normalCells :=
    indep_draws (size := size) (F := fun l => wsum w l ^ 2) (hD.pow_const 2) (fun u v huv => by simp only [hd huv])
      (wsum_measurable.pow_const 2)
  have n1 : Integrable (fun u => (M u * D u) * wsum w (cellDraws t idx u)) normalCells :=
    i1.integrable_mul (hM2.integrable_mul h2) (wsum_memLp.integrable (by norm_num))
  have n2 : Integrable (fun u => D u ^ 2 * wsum w (cellDraws t idx u) ^ 2) normalCells :=
    i2.integrable_mul h2.integrable_sq wsum_memLp.integrable_sq
  have n3 : Integrable (fun u => 2 * ((M u * D u) * wsum w (cellDraws t idx u)) +
      D u ^ 2 * wsum w (cellDraws t idx u) ^ 2) normalCells := (n1.const_mul 2).add n2
  simp only [e]
  rw [integral_add hM2.integrable_sq n3, integral_add (n1.const_mul 2) n2,
    integral_const_mul, i1.integral_fun_mul_eq_mul_integral (hM.mul hD).aestronglyMeasurable
      wsum_measurable.aestronglyMeasurable, wsum_mean,
    i2.integral_fun_mul_eq_mul_integral (hD.pow_const 2).aestronglyMeasurable
      (wsum_measurable.pow_const 2).aestronglyMeasurable, wsum_square hnd]
  ring

end

end Verif
