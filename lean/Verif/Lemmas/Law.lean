/-
Lemmas for the laws of the samplers: laws of functions of uniform and normal draws.
-/
import Verif.Spec.Law
import Verif.Lemmas.Moments
import Verif.Lemmas.Categorical
import Mathlib.MeasureTheory.Measure.Lebesgue.Basic
import Mathlib.Probability.Independence.InfinitePi

namespace Verif

open MeasureTheory ProbabilityTheory Spec
open scoped ENNReal RealInnerProductSpace

section general
variable {Ω V : Type} [MeasurableSpace Ω] [MeasurableSpace V] {P : Measure Ω} {law : ℕ → Measure ℝ}
variable {U : Ω → Draws ℝ}

theorem Spec.IndepDraws.all (h : IndepDraws P law U) : iIndepFun (fun (ij : ℕ × ℕ) ω => U ω ij.1 ij.2) P :=
  iIndepFun_uncurry' (X := fun i j ω => U ω i j) h.measurable h.rows h.cells

/-- Values computed from one draw each. -/
theorem indepCells_of (hU : IndepDraws P law U) {size n : ℕ} {draw : Ω → Except PyErr (Gen (List V))}
    {h : ℕ → ℝ → V} {law' : Fin n → Measure V}
    (hdraw : ∀ᵐ ω ∂P, ∃ g, draw ω = .ok g ∧ g.cols = n ∧ g.rows.length = size ∧
      ∀ i < size, ∃ r, g.rows[i]? = some r ∧ r.length = n ∧ ∀ j < n, r[j]? = some (h j (U ω i j)))
    (hm : ∀ j < n, Measurable (h j)) (hl : ∀ j : Fin n, (law j).map (h j) = law' j) :
    IndepCells P size n draw law' := by
  refine ⟨fun ij ω => h ij.2 (U ω ij.1 ij.2), ?_, ?_, ?_⟩
  · filter_upwards [hdraw] with ω hω
    obtain ⟨g, h1, h2, h3, h4⟩ := hω
    refine ⟨g, h1, h2, h3, fun i => ?_⟩
    obtain ⟨r, hr, hrl, hv⟩ := h4 i i.2
    exact ⟨r, hr, hrl, fun j => hv j j.2⟩
  · have hi := hU.all.precomp (g := fun ij : Fin size × Fin n => ((ij.1 : ℕ), (ij.2 : ℕ))) (by
      rintro ⟨a, b⟩ ⟨c, d⟩ hab
      simp only [Prod.mk.injEq] at hab
      exact Prod.ext (Fin.ext hab.1) (Fin.ext hab.2))
    exact hi.comp (fun ij => h ij.2) (fun ij => hm _ ij.2.2)
  · intro i j
    exact HasLaw.comp ⟨(hm j j.2).aemeasurable, hl j⟩ (hU.law i j)

/-- Individuals computed from their own draws. -/
theorem indepRows_of (hU : IndepDraws P law U) {size n : ℕ} {draw : Ω → Except PyErr (Gen (List ℝ))}
    {h : (ℕ → ℝ) → EuclideanSpace ℝ (Fin n)} {law' : Measure (EuclideanSpace ℝ (Fin n))}
    (hdraw : ∀ᵐ ω ∂P, ∃ g, draw ω = .ok g ∧ g.cols = n ∧ g.rows.length = size ∧
      ∀ i < size, ∃ r, g.rows[i]? = some r ∧ r.length = n ∧ ∀ j : Fin n, r[j]? = some (h (U ω i) j))
    (hm : Measurable h) (hl : ∀ i, HasLaw (fun ω => h (U ω i)) law' P) :
    IndepRows P size n draw law' := by
  refine ⟨fun i ω => h (U ω i), ?_, ?_, fun i => hl i⟩
  · filter_upwards [hdraw] with ω hω
    obtain ⟨g, h1, h2, h3, h4⟩ := hω
    exact ⟨g, h1, h2, h3, fun i => h4 i i.2⟩
  · have hi := hU.rows.precomp (g := fun i : Fin size => (i : ℕ)) Fin.val_injective
    exact hi.comp (fun _ => h) (fun _ => hm)

/-- Uniform draws lie in `[0, 1)`. -/
theorem ae_unit (hU : IndepDraws P law U) {j : ℕ} (hj : law j = unif01) :
    ∀ᵐ ω ∂P, ∀ i, 0 ≤ U ω i j ∧ U ω i j < 1 := by
  rw [ae_all_iff]
  intro i
  have h := (hU.law i j).ae_iff (p := fun x => 0 ≤ x ∧ x < 1)
    (measurableSet_setOfPred.1 (measurableSet_Ico (a := (0:ℝ)) (b := 1)))
  rw [h, hj]
  exact ae_restrict_mem (measurableSet_Ico (a := (0:ℝ)) (b := 1))

end general

section laws

/-- A value compared with the threshold `p`. -/
theorem map_coin {p : ℝ} (h0 : 0 ≤ p) (h1 : p ≤ 1) :
    unif01.map (fun u => if u < p then (1 : ℝ) else 0) = coin p := by
  have hm : Measurable (fun u : ℝ => if u < p then (1 : ℝ) else 0) :=
    Measurable.ite measurableSet_Iio measurable_const measurable_const
  have hsplit : unif01 = volume.restrict (Set.Ico 0 p) + volume.restrict (Set.Ico p 1) := by
    rw [unif01, ← Measure.restrict_union (Set.Ico_disjoint_Ico_same) measurableSet_Ico,
      Set.Ico_union_Ico_eq_Ico h0 h1]
  rw [hsplit, Measure.map_add _ _ hm, coin]
  congr 1
  · rw [Measure.map_congr (g := fun _ => (1:ℝ)), Measure.map_const]
    · simp
    · filter_upwards [ae_restrict_mem measurableSet_Ico] with u hu
      rw [if_pos hu.2]
  · rw [Measure.map_congr (g := fun _ => (0:ℝ)), Measure.map_const]
    · simp
    · filter_upwards [ae_restrict_mem measurableSet_Ico] with u hu
      rw [if_neg (not_lt.2 hu.1)]

/-- `a + (b - a) u`. -/
theorem map_unifOn {a b : ℝ} (hab : a < b) :
    unif01.map (fun u => a + (b - a) * u) = unifOn a b := by
  have hpos : 0 < b - a := by linarith
  have hpre : (fun u => a + (b - a) * u) ⁻¹' (Set.Ico a b) = Set.Ico 0 1 := by
    ext u
    simp only [Set.mem_preimage, Set.mem_Ico]
    constructor
    · rintro ⟨h1, h2⟩
      constructor
      · by_contra hc
        nlinarith
      · by_contra hc
        nlinarith
    · rintro ⟨h1, h2⟩
      constructor <;> nlinarith
  have hm : Measurable (fun u : ℝ => a + (b - a) * u) := by fun_prop
  rw [unif01, ← hpre, ← Measure.restrict_map hm measurableSet_Ico]
  have hcomp : (fun u : ℝ => a + (b - a) * u) = (fun x => a + x) ∘ (fun u => (b - a) * u) := rfl
  rw [hcomp, ← Measure.map_map (by fun_prop) (by fun_prop), Real.map_volume_mul_left hpos.ne',
    Measure.map_smul, (measurePreserving_add_left volume a).map_eq, Measure.restrict_smul, unifOn,
    abs_of_pos (inv_pos.2 hpos), ENNReal.ofReal_inv_of_pos hpos]

/-- `m + s z`. -/
theorem map_gauss (m s : ℝ) :
    (gaussianReal 0 1).map (fun z => m + s * z) = gaussianReal m ⟨s ^ 2, sq_nonneg s⟩ := by
  have hcomp : (fun z : ℝ => m + s * z) = (fun x => m + x) ∘ (fun z => s * z) := rfl
  rw [hcomp, ← Measure.map_map (by fun_prop) (by fun_prop), gaussianReal_map_const_mul,
    gaussianReal_map_const_add]
  simp
  rfl

/-- The empirical distribution of a column is that of a uniformly chosen position. -/
theorem weighted_empirical {V : Type} [MeasurableSpace V] [DecidableEq V] {col : List V}
    {t : List (V × ℝ)} (h : IsEmpirical col t) (hne : col ≠ []) (h1 : (t.map Prod.snd).sum = 1) :
    weighted t = pickedFrom col := by
  have hlen : (0 : ℝ) < col.length := by exact_mod_cast List.length_pos_iff.2 hne
  have hw : weighted t = (t.map (fun vq => (col.length : ENNReal)⁻¹ • (col.count vq.1 • Measure.dirac vq.1))).sum := by
    unfold weighted
    rw [h1]
    congr 1
    apply List.map_congr_left
    rintro ⟨v, q⟩ hvq
    have hq := h.freq v q hvq
    have hc : (col.filter (fun w => w = v)).length = col.count v := by
      rw [List.count_eq_length_filter]
      congr 1
    rw [hc] at hq
    have : q = (col.count v : ℝ) / col.length := by rw [eq_div_iff hlen.ne']; exact hq
    rw [div_one, this, ENNReal.ofReal_div_of_pos hlen, ENNReal.ofReal_natCast, ENNReal.ofReal_natCast,
      ENNReal.div_eq_inv_mul, ← smul_smul, Nat.cast_smul_eq_nsmul]
  have hfst : (t.map (fun vq => (col.length : ENNReal)⁻¹ • (col.count vq.1 • (Measure.dirac vq.1 : Measure V)))) =
      (t.map Prod.fst).map (fun v => (col.length : ENNReal)⁻¹ • (col.count v • (Measure.dirac v : Measure V))) := by
    rw [List.map_map]; rfl
  rw [hw, pickedFrom, hfst, ← List.sum_toFinset _ h.distinct, Finset.sum_list_map_count, Finset.smul_sum]
  apply Finset.sum_congr _ (fun _ _ => rfl)
  ext v
  rw [List.mem_toFinset, List.mem_toFinset, h.observed]

/-- The value chosen by `pickFrom` among the remaining ones. -/
noncomputable def pickD {V : Type} (v0 : V) (total acc : ℝ) (t : List (V × ℝ)) (u : ℝ) : V :=
  ((t.map Prod.fst)[pickFrom total acc u (t.map Prod.snd)]?).getD v0

theorem pickD_cons {V : Type} (v0 : V) (total acc : ℝ) (vq : V × ℝ) (t : List (V × ℝ)) (u : ℝ) :
    pickD v0 total acc (vq :: t) u =
      if u < (acc + vq.2) / total then vq.1 else pickD v0 total (acc + vq.2) t u := by
  unfold pickD
  simp only [List.map_cons, pickFrom]
  split <;> simp

theorem measurable_pickD {V : Type} [MeasurableSpace V] (v0 : V) (total : ℝ) (t : List (V × ℝ)) (acc : ℝ) :
    Measurable (pickD v0 total acc t) := by
  induction t generalizing acc with
  | nil => exact measurable_const
  | cons vq t ih =>
    have : pickD v0 total acc (vq :: t) =
        fun u => if u < (acc + vq.2) / total then vq.1 else pickD v0 total (acc + vq.2) t u :=
      funext (pickD_cons v0 total acc vq t)
    rw [this]
    exact Measurable.ite measurableSet_Iio measurable_const (ih _)

theorem map_pickD {V : Type} [MeasurableSpace V] (v0 : V) {total : ℝ} (ht : 0 < total)
    (t : List (V × ℝ)) (acc : ℝ) (hp : ∀ vq ∈ t, 0 ≤ vq.2) (hs : acc + (t.map Prod.snd).sum = total) :
    (volume.restrict (Set.Ico (acc / total) 1)).map (pickD v0 total acc t) =
      (t.map (fun vq => ENNReal.ofReal (vq.2 / total) • Measure.dirac vq.1)).sum := by
  induction t generalizing acc with
  | nil =>
    simp only [List.map_nil, List.sum_nil, add_zero] at hs
    rw [hs, div_self ht.ne', Set.Ico_self]
    simp
  | cons vq t ih =>
    simp only [List.map_cons, List.sum_cons] at hs ⊢
    have hq : 0 ≤ vq.2 := hp vq (by simp)
    have hp' : ∀ x ∈ t, 0 ≤ x.2 := fun x hx => hp x (by simp [hx])
    have hsum : 0 ≤ (t.map Prod.snd).sum := by
      apply List.sum_nonneg
      intro x hx
      obtain ⟨y, hy, rfl⟩ := List.mem_map.1 hx
      exact hp' y hy
    have hle1 : acc / total ≤ (acc + vq.2) / total := by
      apply div_le_div_of_nonneg_right _ ht.le
      linarith
    have hle2 : (acc + vq.2) / total ≤ 1 := by
      rw [div_le_one ht]
      linarith
    rw [← Set.Ico_union_Ico_eq_Ico hle1 hle2,
      Measure.restrict_union Set.Ico_disjoint_Ico_same measurableSet_Ico,
      Measure.map_add _ _ (measurable_pickD _ _ _ _)]
    congr 1
    · rw [Measure.map_congr (g := fun _ => vq.1), Measure.map_const]
      · simp [← sub_div]
      · filter_upwards [ae_restrict_mem measurableSet_Ico] with u hu
        rw [pickD_cons, if_pos hu.2]
    · rw [← ih (acc + vq.2) hp' (by linarith)]
      apply Measure.map_congr
      filter_upwards [ae_restrict_mem measurableSet_Ico] with u hu
      rw [pickD_cons, if_neg (not_lt.2 hu.1)]

/-- A value chosen with `np.random.choice`. -/
theorem map_weighted {V : Type} [MeasurableSpace V] (v0 : V) (t : List (V × ℝ)) (hp : ∀ vq ∈ t, 0 ≤ vq.2)
    (ht : 0 < (t.map Prod.snd).sum) :
    unif01.map (pickD v0 (t.map Prod.snd).sum 0 t) = weighted t := by
  have := map_pickD v0 ht t 0 hp (by simp)
  rw [zero_div] at this
  exact this

end laws

section gauss
open Matrix WithLp
variable {ι : Type} [Fintype ι] [DecidableEq ι]

/-- The law of `μ + M x` for standard normal `x`. -/
theorem map_affine_stdGaussian (μ : EuclideanSpace ℝ ι) (M : Matrix ι ι ℝ) :
    (stdGaussian (EuclideanSpace ℝ ι)).map (fun x => μ + toEuclideanCLM (𝕜 := ℝ) M x) =
      multivariateGaussian μ (M * M.transpose) := by
  have hpsd : (M * M.transpose).PosSemidef := by
    have := Matrix.posSemidef_self_mul_conjTranspose M
    rwa [Matrix.conjTranspose_eq_transpose_of_trivial] at this
  have h : (fun x => μ + (toEuclideanCLM (𝕜 := ℝ) M) x) = (fun x => μ + x) ∘ (toEuclideanCLM (𝕜 := ℝ) M) := rfl
  have hg : IsGaussian ((stdGaussian (EuclideanSpace ℝ ι)).map (fun x => μ + toEuclideanCLM (𝕜 := ℝ) M x)) := by
    rw [h, ← Measure.map_map (measurable_const_add μ) (by fun_prop)]
    infer_instance
  apply IsGaussian.ext
  · simp only [id_eq, integral_id_multivariateGaussian]
    rw [integral_map (by fun_prop) (by fun_prop), integral_add (integrable_const _), integral_const]
    · simp [ContinuousLinearMap.integral_comp_comm _ IsGaussian.integrable_fun_id]
    · exact IsGaussian.integrable_id.comp_measurable (by fun_prop)
  · ext x y
    rw [covarianceBilin_multivariateGaussian hpsd, h,
      ← Measure.map_map (measurable_const_add μ) (by fun_prop), covarianceBilin_map_const_add,
      covarianceBilin_map, covarianceBilin_stdGaussian, innerSL_apply_apply]
    · have hadj : ContinuousLinearMap.adjoint (toEuclideanCLM (𝕜 := ℝ) M) = toEuclideanCLM (𝕜 := ℝ) M.transpose := by
        rw [← ContinuousLinearMap.star_eq_adjoint, ← map_star, Matrix.star_eq_conjTranspose,
          Matrix.conjTranspose_eq_transpose_of_trivial]
      rw [ContinuousLinearMap.adjoint_inner_left, hadj, ← inner_toEuclideanCLM, map_mul]
      rfl
    · exact IsGaussian.memLp_two_id

/-- The first `n` of independent standard normal draws. -/
theorem hasLaw_std {Ω : Type} [MeasurableSpace Ω] {P : Measure Ω} {n : ℕ} {z : Ω → ℕ → ℝ}
    (hm : ∀ j, Measurable (fun ω => z ω j)) (hi : iIndepFun (fun j ω => z ω j) P)
    (hl : ∀ j < n, HasLaw (fun ω => z ω j) (gaussianReal 0 1) P) :
    HasLaw (fun ω => toLp 2 (fun k : Fin n => z ω k)) (stdGaussian (EuclideanSpace ℝ (Fin n))) P := by
  have h1 : iIndepFun (fun (k : Fin n) ω => z ω k) P := hi.precomp Fin.val_injective
  have h2 : HasLaw (fun ω (k : Fin n) => z ω k) (Measure.pi (fun _ => gaussianReal 0 1)) P := by
    have hm' : ∀ k : Fin n, Measurable (fun ω => z ω k) := fun k => hm k
    refine ⟨(measurable_pi_lambda (fun ω (k : Fin n) => z ω k) hm').aemeasurable, ?_⟩
    rw [h1.map_fun_eq_pi_map (fun k => (hm' k).aemeasurable)]
    congr 1
    funext k
    exact (hl k k.2).map_eq
  refine HasLaw.comp (Y := toLp 2) ⟨by fun_prop, ?_⟩ h2
  exact map_pi_eq_stdGaussian

/-- A point moved by standard normal draws multiplied with a matrix. -/
noncomputable def affineVec (n : ℕ) (m : ℕ → ℝ) (a : ℕ → ℕ → ℝ) (z : ℕ → ℝ) : EuclideanSpace ℝ (Fin n) :=
  toLp 2 (fun j : Fin n => m j + ((List.range n).map (fun k => z k * a k j)).sum)

theorem affineVec_eq (n : ℕ) (m : ℕ → ℝ) (a : ℕ → ℕ → ℝ) (z : ℕ → ℝ) :
    affineVec n m a z = toLp 2 (fun j : Fin n => m j) +
      toEuclideanCLM (𝕜 := ℝ) (toMat n a).transpose (toLp 2 (fun k : Fin n => z k)) := by
  ext j
  rw [toEuclideanCLM_toLp]
  simp only [affineVec, PiLp.add_apply, Matrix.mulVec, dotProduct, Matrix.transpose_apply, toMat]
  congr 1
  rw [← Finset.sum_range (fun k => a k j * z k)]
  simp only [mul_comm]
  rfl

theorem measurable_affineVec (n : ℕ) (m : ℕ → ℝ) (a : ℕ → ℕ → ℝ) : Measurable (affineVec n m a) := by
  have : affineVec n m a = fun z => toLp 2 (fun j : Fin n => m j) +
      toEuclideanCLM (𝕜 := ℝ) (toMat n a).transpose (toLp 2 (fun k : Fin n => z k)) :=
    funext (affineVec_eq n m a)
  rw [this]
  fun_prop

theorem hasLaw_affineVec {Ω : Type} [MeasurableSpace Ω] {P : Measure Ω} {n : ℕ} {z : Ω → ℕ → ℝ}
    (hm : ∀ j, Measurable (fun ω => z ω j)) (hi : iIndepFun (fun j ω => z ω j) P)
    (hl : ∀ j < n, HasLaw (fun ω => z ω j) (gaussianReal 0 1) P) (m : ℕ → ℝ) (a : ℕ → ℕ → ℝ) :
    HasLaw (fun ω => affineVec n m a (z ω))
      (multivariateGaussian (toLp 2 (fun j : Fin n => m j)) ((toMat n a).transpose * toMat n a)) P := by
  have h := HasLaw.comp (Y := fun x => toLp 2 (fun j : Fin n => m j) +
    toEuclideanCLM (𝕜 := ℝ) (toMat n a).transpose x) ⟨by fun_prop,
      map_affine_stdGaussian (toLp 2 (fun j : Fin n => m j)) (toMat n a).transpose⟩ (hasLaw_std hm hi hl)
  rw [Matrix.transpose_transpose] at h
  refine h.congr (Filter.Eventually.of_forall fun ω => ?_)
  exact affineVec_eq n m a (z ω)

/-- Only the first `n` draws matter. -/
theorem affineVec_restrict (n : ℕ) (m : ℕ → ℝ) (a : ℕ → ℕ → ℝ) :
    ∃ G : (↥(Finset.range n) → ℝ) → EuclideanSpace ℝ (Fin n), Measurable G ∧
      ∀ z, affineVec n m a z = G (fun k => z k) := by
  refine ⟨fun w => affineVec n m a (fun k => if h : k ∈ Finset.range n then w ⟨k, h⟩ else 0), ?_, ?_⟩
  · refine (measurable_affineVec n m a).comp (measurable_pi_lambda _ fun k => ?_)
    by_cases h : k ∈ Finset.range n
    · simp only [h, dif_pos]
      exact measurable_pi_apply _
    · simp only [h, dif_neg, not_false_eq_true]
      exact measurable_const
  · intro z
    unfold affineVec
    congr 1
    funext j
    congr 2
    apply List.map_congr_left
    intro k hk
    beta_reduce
    rw [dif_pos (Finset.mem_range.2 (List.mem_range.1 hk))]

/-- Draw number `n` selects one of `N` points, all equally likely; the point is moved by the other draws. -/
theorem hasLaw_mixture {Ω : Type} [MeasurableSpace Ω] {P : Measure Ω} {n N : ℕ} (hN : 0 < N)
    {z : Ω → ℕ → ℝ} (hm : ∀ j, Measurable (fun ω => z ω j)) (hi : iIndepFun (fun j ω => z ω j) P)
    (hl : ∀ j < n, HasLaw (fun ω => z ω j) (gaussianReal 0 1) P) (hu : HasLaw (fun ω => z ω n) unif01 P)
    (m : ℕ → ℕ → ℝ) (a : ℕ → ℕ → ℝ) {κ : ℝ → ℕ} (hκm : Measurable κ)
    (hκ : ∀ u, 0 ≤ u → ∀ k : ℕ, κ u = k ↔ (k : ℝ) / N ≤ u ∧ u < (k + 1 : ℝ) / N) :
    HasLaw (fun ω => affineVec n (m (κ (z ω n))) a (z ω))
      (mixture N (fun k => multivariateGaussian (toLp 2 (fun j : Fin n => m k j))
        ((toMat n a).transpose * toMat n a))) P := by
  have hN' : (0 : ℝ) < N := by exact_mod_cast hN
  have hunit : ∀ᵐ ω ∂P, 0 ≤ z ω n ∧ z ω n < 1 := by
    rw [hu.ae_iff (p := fun x => 0 ≤ x ∧ x < 1)
      (measurableSet_setOfPred.1 (measurableSet_Ico (a := (0:ℝ)) (b := 1)))]
    exact ae_restrict_mem (measurableSet_Ico (a := (0:ℝ)) (b := 1))
  have hkm : Measurable (fun ω => κ (z ω n)) := hκm.comp (hm n)
  have hzm : Measurable z := measurable_pi_lambda _ hm
  have hpair : Measurable (fun x : ℕ × (ℕ → ℝ) => affineVec n (m x.1) a x.2) :=
    measurable_from_prod_countable_right (fun k => measurable_affineVec n (m k) a)
  have hXm : Measurable (fun ω => affineVec n (m (κ (z ω n))) a (z ω)) := hpair.comp (hkm.prodMk hzm)
  have hlt : ∀ᵐ ω ∂P, κ (z ω n) < N := by
    filter_upwards [hunit] with ω hω
    have h := (hκ _ hω.1 _).1 rfl
    have h1 := lt_of_le_of_lt h.1 hω.2
    rw [div_lt_one hN'] at h1
    exact_mod_cast h1
  have hprob : ∀ k < N, P {ω | κ (z ω n) = k} = (N : ENNReal)⁻¹ := by
    intro k hk
    have he : {ω | κ (z ω n) = k} =ᵐ[P] {ω | z ω n ∈ Set.Ico ((k : ℝ) / N) ((k + 1 : ℝ) / N)} := by
      filter_upwards [hunit] with ω hω
      exact propext (hκ _ hω.1 k)
    rw [measure_congr he, hu.measure_eq (p := fun x => x ∈ Set.Ico ((k : ℝ) / N) ((k + 1 : ℝ) / N))
      measurableSet_Ico]
    have hsub : Set.Ico ((k : ℝ) / N) ((k + 1 : ℝ) / N) ⊆ Set.Ico 0 1 := by
      intro x hx
      have h1 : (k + 1 : ℝ) / N ≤ 1 := by
        rw [div_le_one hN']
        exact_mod_cast hk
      exact ⟨le_trans (by positivity) hx.1, lt_of_lt_of_le hx.2 h1⟩
    change unif01 (Set.Ico ((k : ℝ) / N) ((k + 1 : ℝ) / N)) = _
    rw [unif01, Measure.restrict_apply measurableSet_Ico, Set.inter_eq_left.2 hsub, Real.volume_Ico,
      ← sub_div, add_sub_cancel_left, one_div, ENNReal.ofReal_inv_of_pos hN', ENNReal.ofReal_natCast]
  refine ⟨hXm.aemeasurable, ?_⟩
  ext s hs
  rw [Measure.map_apply hXm hs]
  have hcover : (fun ω => affineVec n (m (κ (z ω n))) a (z ω)) ⁻¹' s =ᵐ[P]
      ⋃ k ∈ Finset.range N, ({ω | κ (z ω n) = k} ∩ {ω | affineVec n (m k) a (z ω) ∈ s}) := by
    filter_upwards [hlt] with ω hω
    apply propext
    change affineVec n (m (κ (z ω n))) a (z ω) ∈ s ↔ ω ∈ ⋃ k ∈ Finset.range N, _
    simp only [Set.mem_iUnion, Finset.mem_range, Set.mem_inter_iff, Set.mem_ofPred_eq, exists_prop]
    constructor
    · intro h
      exact ⟨_, hω, rfl, h⟩
    · rintro ⟨k, _, rfl, h⟩
      exact h
  have hAm : ∀ k, Measurable (fun ω => affineVec n (m k) a (z ω)) := fun k =>
    (measurable_affineVec n (m k) a).comp hzm
  rw [measure_congr hcover, measure_biUnion_finset]
  · rw [mixture, Measure.smul_apply, Measure.finsetSum_apply, smul_eq_mul, Finset.mul_sum]
    apply Finset.sum_congr rfl
    intro k hk
    obtain ⟨G, hG, hGz⟩ := affineVec_restrict n (m k) a
    have hind := hi.indepFun_finset (Finset.range n) {n} (by simp) hm
    have hind2 := hind.comp (φ := G) (ψ := fun w : ↥({n} : Finset ℕ) → ℝ => κ (w ⟨n, by simp⟩)) hG
      (hκm.comp (measurable_pi_apply _))
    have hmul := hind2.measure_inter_preimage_eq_mul s {k} hs (measurableSet_singleton k)
    have e1 : {ω | κ (z ω n) = k} ∩ {ω | affineVec n (m k) a (z ω) ∈ s} =
        ((G ∘ fun ω (i : ↥(Finset.range n)) => z ω i) ⁻¹' s) ∩
        (((fun w : ↥({n} : Finset ℕ) → ℝ => κ (w ⟨n, by simp⟩)) ∘ fun ω (i : ↥({n} : Finset ℕ)) => z ω i) ⁻¹' {k}) := by
      ext ω
      simp only [Set.mem_inter_iff, Set.mem_ofPred_eq, hGz, Set.mem_preimage, Function.comp,
        Set.mem_singleton_iff]
      exact and_comm
    have e2 : ((G ∘ fun ω (i : ↥(Finset.range n)) => z ω i) ⁻¹' s) = {ω | affineVec n (m k) a (z ω) ∈ s} := by
      ext ω
      simp only [Set.mem_ofPred_eq, hGz, Set.mem_preimage, Function.comp]
    rw [e1, hmul, e2, mul_comm]
    congr 1
    · exact hprob k (Finset.mem_range.1 hk)
    · exact (hasLaw_affineVec hm hi hl (m k) a).measure_eq (p := fun x => x ∈ s) hs
  · intro k _ l _ hkl
    refine Set.disjoint_left.2 fun ω h1 h2 => hkl ?_
    exact h1.1.symm.trans h2.1
  · intro k _
    exact (hkm (measurableSet_singleton k)).inter (hAm k hs)

end gauss

end Verif
