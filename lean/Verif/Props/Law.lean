/-
C74: the probability laws of the sampled generations.
-/
import Verif.Lemmas.Law
import Verif.Props.Binary
import Verif.Props.Kde
import Verif.Props.Categorical
import Mathlib.MeasureTheory.Function.Floor

set_option linter.unusedSectionVars false

namespace Verif

open MeasureTheory ProbabilityTheory Spec WithLp

section
variable {Ω : Type} [MeasurableSpace Ω] {P : Measure Ω} {U : Ω → Draws ℝ} {size : ℤ}

/-! ### Binary variables -/

/-- **C74** `UniBin.sample`: independent coins, variable `j` is 1 with probability `pm[j]`. -/
theorem C74_uni_bin (hU : IndepDraws P (fun _ => unif01) U) {b : UniBin ℝ} (hp : b.p.length = b.n)
    (h01 : ∀ x ∈ b.p, 0 ≤ x ∧ x ≤ 1) (hs : 0 ≤ size) :
    IndepCells P size.toNat b.n (fun ω => b.sample size (U ω)) (fun j => coin (b.p.getD j 0)) := by
  refine indepCells_of hU (h := fun j u => if u < b.p.getD j 0 then 1 else 0) ?_ ?_ ?_
  · refine Filter.Eventually.of_forall fun ω => ⟨_, UniBin.sample_of_length hp hs, rfl, by simp, fun i hi => ?_⟩
    refine ⟨_, by rw [List.getElem?_map, List.getElem?_range hi]; rfl, by simp [binRow], fun j hj => ?_⟩
    rw [binRow_getElem? _ _ _ _ _ hj]
    have h1 : (if b.n = 1 then 0 else j) = j := by split <;> omega
    have h2 : (if b.p.length = 1 then 0 else j) = j := by split <;> omega
    rw [h1, h2]
  · intro j _
    exact Measurable.ite measurableSet_Iio measurable_const measurable_const
  · intro j
    have hj : j.1 < b.p.length := by rw [hp]; exact j.2
    have := h01 _ (List.getElem_mem hj)
    have he : b.p.getD j 0 = b.p[j.1] := by
      rw [List.getD_eq_getElem?_getD, List.getElem?_eq_getElem hj]; rfl
    rw [he]
    exact map_coin this.1 this.2

/-- **C74** the binary model: after learning from any selection, variable `j` of the next generation is 1
with the fraction of ones of the selected individuals, forced into the bounds. -/
theorem C74_UMDAd (hU : IndepDraws P (fun _ => unif01) U) {fl : ℝ → ℝ} {b b' : UniBin ℝ}
    {data : List (List ℝ)} (hlb : 0 ≤ b.lb) (hub : b.ub ≤ 1) (hb : b.lb < b.ub) (hr : Rect b.n data)
    (h : b.learn fl data = .ok b') (hs : 0 ≤ size) :
    IndepCells P size.toNat b.n (fun ω => b'.sample size (U ω))
      (fun j => coin (clip b.lb b.ub (fl (mean (col data j))))) := by
  obtain ⟨h1, h2, h3, h4, h5⟩ := C20_learn_frequencies hb hr h
  have h01 : ∀ x ∈ b'.p, 0 ≤ x ∧ x ≤ 1 := by
    intro x hx
    obtain ⟨j, hj⟩ := List.mem_iff_getElem?.1 hx
    have hjn : j < b.n := by rw [← h1]; exact (List.getElem?_eq_some_iff.1 hj).1
    rw [h5 j hjn] at hj
    obtain rfl := Option.some.inj hj
    exact ⟨hlb.trans (le_max_left _ _), (max_le hb.le (min_le_left _ _)).trans hub⟩
  have hmain := C74_uni_bin (size := size) hU (b := b') (by rw [h1, h4]) h01 hs
  rw [h4] at hmain
  convert hmain using 2 with j
  rw [List.getD_eq_getElem?_getD, h5 j j.2]
  rfl

/-! ### Continuous variables -/

/-- **C74** `UniformGenInit.sample` (exact arithmetic): independent values, variable `j` uniform between its
bounds. -/
theorem C74_uniform_init (hU : IndepDraws P (fun _ => unif01) U) {u : UniformInit ℝ}
    (hl : u.lower.isNone = false) (hl' : u.lower.fits u.n = true) (hu : u.upper.isNone = false)
    (hu' : u.upper.fits u.n = true) (hlt : ∀ j < u.n, u.lower.at j < u.upper.at j) (hs : 0 ≤ size) :
    IndepCells P size.toNat u.n (fun ω => u.sample id size (U ω))
      (fun j => unifOn (u.lower.at j) (u.upper.at j)) := by
  refine indepCells_of hU (h := fun j x => u.lower.at j + (u.upper.at j - u.lower.at j) * x) ?_ ?_ ?_
  · refine Filter.Eventually.of_forall fun ω => ?_
    refine ⟨_, by
      unfold UniformInit.sample
      rw [if_neg (by simp [hl, hu]), if_neg (by omega), if_neg (by simp [hl', hu'])], rfl, by simp, ?_⟩
    intro i hi
    refine ⟨_, by rw [List.getElem?_map, List.getElem?_range hi]; rfl, by simp, fun j hj => ?_⟩
    rw [List.getElem?_map, List.getElem?_range hj]
    rfl
  · intro j _
    fun_prop
  · intro j
    exact map_unifOn (hlt j j.2)

/-- **C74** `UniGauss.sample` and `AdaptUniGauss.sample`: independent normal values, variable `j` with the
mean `pm[0, j]` and the standard deviation `pm[1, j]`. -/
theorem C74_uni_gauss (hU : IndepDraws P (fun _ => gaussianReal 0 1) U) {b : UniGauss ℝ}
    (hm : b.mean.length = b.n) (hsd : b.std.length = b.n) (hpos : ∀ s ∈ b.std, 0 ≤ s) (hs : 0 ≤ size) :
    IndepCells P size.toNat b.n (fun ω => b.sample size (U ω))
      (fun j => gaussianReal (b.mean.getD j 0) ⟨b.std.getD j 0 ^ 2, sq_nonneg _⟩) := by
  refine indepCells_of hU (h := fun j z => b.mean.getD j 0 + b.std.getD j 0 * z) ?_ ?_ ?_
  · refine Filter.Eventually.of_forall fun ω =>
      ⟨_, UniGauss.sample_eq (lb := b.lb) ⟨rfl, rfl, hm, hsd, hpos⟩ hs (U ω), rfl, by simp, ?_⟩
    intro i hi
    refine ⟨_, by rw [List.getElem?_map, List.getElem?_range hi]; rfl, by simp, fun j hj => ?_⟩
    rw [List.getElem?_map, List.getElem?_range hj]
    rfl
  · intro j _
    fun_prop
  · intro j
    exact map_gauss _ _

/-- **C74** the univariate Gaussian model: after learning from any selection, the variables of the next
generation are independent and normal, with the mean of the selected values and their standard deviation
(not less than `lower_bound`). -/
theorem C74_UMDAc (hU : IndepDraws P (fun _ => gaussianReal 0 1) U) {b : UniGauss ℝ} {g : Gen (List ℝ)}
    (hn : b.n ≠ 0) (hc : b.n ≤ g.cols) (hne : g.rows ≠ []) (hs : 0 ≤ size) :
    ∃ b', b.learn Real.sqrt g = .ok b' ∧
      IndepCells P size.toNat b.n (fun ω => b'.sample size (U ω))
        (fun j => gaussianReal (mean (col g.rows j))
          ⟨max (Real.sqrt (variance (col g.rows j))) b.lb ^ 2, sq_nonneg _⟩) := by
  obtain ⟨b', h1, h2, h3, h4, h5, h6⟩ := C24_learn real_isSqrt (fun h => absurd h hn) hc hne
  refine ⟨b', h1, ?_⟩
  have hpos : ∀ s ∈ b'.std, 0 ≤ s := fun s h =>
    ((C24_sample_after_learn real_isSqrt (fun h => absurd h hn) h1 hs (fun _ _ => 0)).1 s h).1
  have hmain := C74_uni_gauss (size := size) hU (b := b') (by rw [h4, h2]) (by rw [h5, h2]) hpos hs
  rw [h2] at hmain
  convert hmain using 2 with j
  obtain ⟨k1, s, k2, k3, k4⟩ := h6 j j.2
  have hsq : Real.sqrt (variance (col g.rows j)) = s := by rw [← k3]; exact Real.sqrt_mul_self k2
  congr 1
  · rw [List.getD_eq_getElem?_getD, k1]; rfl
  · apply NNReal.eq
    change max (Real.sqrt (variance (col g.rows j))) b.lb ^ 2 = b'.std.getD j 0 ^ 2
    rw [List.getD_eq_getElem?_getD, k4, hsq]
    rfl

/-- **C74** `MultiGauss.sample`: independent individuals with the multivariate normal law with mean `pm_means`
and covariance `pm_cov`, if that matrix is positive semidefinite (see C55 for the others). -/
theorem C74_multi_gauss (hU : IndepDraws P (fun _ => gaussianReal 0 1) U) {b : MultiGauss ℝ}
    (hm : b.means.length = b.n) (hr : b.cov.length = b.n) (hsq : Rect b.n b.cov)
    {fac : List (List ℝ) → List (List ℝ)} (hsvd : IsSvdRoot b.n (entry b.cov) (entry (fac b.cov)))
    (hsym : ∀ i < b.n, ∀ j < b.n, entry b.cov i j = entry b.cov j i) (hpsd : PSD b.n (entry b.cov))
    (hs : 0 ≤ size) :
    IndepRows P size.toNat b.n (fun ω => b.sample fac size (U ω))
      (multivariateGaussian (toLp 2 (fun j : Fin b.n => b.means.getD j 0)) (toMat b.n (entry b.cov))) := by
  have hgram : (toMat b.n (entry (fac b.cov))).transpose * toMat b.n (entry (fac b.cov)) =
      toMat b.n (entry b.cov) := by
    ext i j
    have := (svdRoot_gram_iff hsym hsvd).2 hpsd i i.2 j j.2
    rw [Finset.sum_range] at this
    rw [Matrix.mul_apply]
    exact this
  refine indepRows_of hU (h := affineVec b.n (fun j => b.means.getD j 0) (entry (fac b.cov))) ?_
    (measurable_affineVec _ _ _) ?_
  · refine Filter.Eventually.of_forall fun ω =>
      ⟨_, MultiGauss.sample_eq ⟨rfl, hm, hr, hsq⟩ hs (U ω), rfl, by simp, ?_⟩
    intro i hi
    refine ⟨_, by rw [List.getElem?_map, List.getElem?_range hi]; rfl, by simp, fun j => ?_⟩
    have hj : (List.range b.n)[(j : ℕ)]? = some (j : ℕ) := List.getElem?_range j.2
    change (List.map _ (List.range b.n))[(j : ℕ)]? = _
    rw [List.getElem?_map, hj]
    rfl
  · intro i
    rw [← hgram]
    exact hasLaw_affineVec (hU.measurable i) (hU.cells i) (fun j _ => hU.law i j) _ _

theorem measurable_pick (N : ℕ) : Measurable (pick (K := ℝ) N) := by
  have h : pick (K := ℝ) N = fun u : ℝ => if 0 ≤ u * N then ⌊u * (N : ℝ)⌋.toNat else ⌈u * (N : ℝ)⌉.toNat := by
    funext u
    unfold pick pyInt Num.truncZ
    split <;> rfl
  rw [h]
  have hm : Measurable (fun u : ℝ => u * N) := by fun_prop
  refine Measurable.ite (measurableSet_le measurable_const hm) ?_ ?_
  · exact (measurable_from_top (f := Int.toNat)).comp (Int.measurable_floor.comp hm)
  · exact (measurable_from_top (f := Int.toNat)).comp (Int.measurable_ceil.comp hm)

/-- **C74** `UniKDE` after learning from any selection: the individuals of the next generation are independent;
each is normal around one of the selected individuals, all equally likely, with the sample covariance of the
selection times the squared bandwidth. -/
theorem C74_uni_kde {isPD : List (List ℝ) → Bool} {h2 : ℕ → ℕ → ℝ} {fac : List (List ℝ) → List (List ℝ)}
    {b b' : UniKDE ℝ} {g : Gen (List ℝ)}
    (hU : IndepDraws P (fun j => if j < g.cols then gaussianReal 0 1 else unif01) U)
    (h : b.learn isPD h2 g = .ok b') (hh : 0 ≤ h2 g.rows.length g.cols)
    (hsvd : ∀ ker, b'.kernel = some ker → IsSvdRoot g.cols (entry ker.cov) (entry (fac ker.cov)))
    (hs : 0 ≤ size) :
    IndepRows P size.toNat g.cols (fun ω => b'.sample fac size (U ω))
      (mixture g.rows.length (fun k => multivariateGaussian
        (toLp 2 (fun j : Fin g.cols => (g.rows.getD k []).getD j 0))
        (toMat g.cols (fun i j => covariance (col g.rows i) (col g.rows j) * h2 g.rows.length g.cols)))) := by
  obtain ⟨hr, _, _, hk⟩ := UniKDE.learn_ok h
  have hsvd := hsvd _ hk
  generalize hd : g.cols = d at *
  generalize hN : g.rows.length = N at *
  set c : List (List ℝ) := (List.range d).map (fun i => (List.range d).map (fun j =>
      covEntry g.rows i j * h2 N d)) with hc
  have hent : ∀ i < d, ∀ j < d, entry c i j = covEntry g.rows i j * h2 N d := by
    intro i hi j hj; rw [hc]
    exact entry_map (F := fun i j => covEntry g.rows i j * h2 N d) hi hj
  have hsym : ∀ i < d, ∀ j < d, entry c i j = entry c j i := by
    intro i hi j hj
    rw [hent i hi j hj, hent j hj i hi, covEntry_eq, covEntry_eq, covariance_comm]
  have hpsd : PSD d (entry c) := by
    intro x
    have h0 := cov_psd (rows := g.rows) (by omega) d x
    have : ∑ i ∈ Finset.range d, ∑ j ∈ Finset.range d, x i * entry c i j * x j =
        (∑ i ∈ Finset.range d, ∑ j ∈ Finset.range d, x i * covEntry g.rows i j * x j) * h2 N d := by
      rw [Finset.sum_mul]
      apply Finset.sum_congr rfl; intro i hi
      rw [Finset.sum_mul]
      apply Finset.sum_congr rfl; intro j hj
      rw [hent i (Finset.mem_range.1 hi) j (Finset.mem_range.1 hj)]; ring
    rw [this]
    exact mul_nonneg h0 hh
  have hgram : (toMat d (entry (fac c))).transpose * toMat d (entry (fac c)) =
      toMat d (fun i j => covariance (col g.rows i) (col g.rows j) * h2 N d) := by
    ext i j
    have := (svdRoot_gram_iff hsym hsvd).2 hpsd i i.2 j j.2
    rw [Finset.sum_range, hent i i.2 j j.2, covEntry_eq] at this
    rw [Matrix.mul_apply]
    exact this
  have hlen : c.length = d := by simp [hc]
  have hpm : Measurable (fun z : ℕ → ℝ => affineVec d (fun j => (g.rows.getD (pick N (z d)) []).getD j 0)
      (entry (fac c)) z) := by
    have hpair : Measurable (fun x : ℕ × (ℕ → ℝ) => affineVec d (fun j => (g.rows.getD x.1 []).getD j 0)
        (entry (fac c)) x.2) :=
      measurable_from_prod_countable_right (fun k => measurable_affineVec d (fun j => (g.rows.getD k []).getD j 0) (entry (fac c)))
    exact hpair.comp (((measurable_pick N).comp (measurable_pi_apply d)).prodMk measurable_id)
  refine indepRows_of hU (h := fun z => affineVec d (fun j => (g.rows.getD (pick N (z d)) []).getD j 0)
    (entry (fac c)) z) ?_ hpm ?_
  · refine Filter.Eventually.of_forall fun ω => ?_
    refine ⟨_, by
      unfold UniKDE.sample
      rw [hk]
      dsimp only
      rw [if_neg (by omega)], hlen, by simp, ?_⟩
    intro i hi
    refine ⟨_, by rw [List.getElem?_map, List.getElem?_range hi]; rfl, by simp [Kde.row, hlen], fun j => ?_⟩
    have hj : (List.range d)[(j : ℕ)]? = some (j : ℕ) := List.getElem?_range j.2
    unfold Kde.row
    simp only [hlen]
    change (List.map _ (List.range d))[(j : ℕ)]? = _
    rw [List.getElem?_map, hj, hN]
    rfl
  · intro i
    rw [← hgram]
    refine hasLaw_mixture (by omega) (hU.measurable i) (hU.cells i) (fun j hj => ?_) ?_
      (fun k j => (g.rows.getD k []).getD j 0) (entry (fac c)) (measurable_pick N)
      (fun u hu k => C58_pick (by omega) hu k)
    · have := hU.law i j
      rwa [if_pos hj] at this
    · have := hU.law i d
      rwa [if_neg (lt_irrefl d)] at this

/-! ### Categorical variables -/

/-- The column drawn by `np.random.choice`. -/
theorem npChoice_pickD {V : Type} {t : List (V × ℝ)} {u : ℕ → ℝ} {col : List V} (v0 : V)
    (h : npChoice (t.map Prod.fst) (t.map Prod.snd) size u = .ok col) {i : ℕ} (hi : i < size.toNat) :
    col[i]? = some (pickD v0 (t.map Prod.snd).sum 0 t (u i)) := by
  obtain ⟨_, _, _, _, hl, hv⟩ := npChoice_ok h
  rw [List.getElem?_eq_getElem (by omega)]
  have h1 := hv i _ (List.getElem?_eq_getElem (by omega : i < col.length))
  unfold pickVal at h1
  split at h1
  · rename_i v hvv
    rw [← Except.ok.inj h1]
    unfold pickD
    rw [hvv]
    rfl
  · cases h1

end

section
variable {Ω : Type} [MeasurableSpace Ω] {P : Measure Ω} {U : Ω → Draws ℝ} {size : ℤ}
variable {α L : Type} [LinearOrder α] [DecidableEq L]

/-- The values that `UniCategorical.sample` draws (`v0` completes the functions outside of `[0, 1)`). -/
theorem UniCat.sample_cells (hU : IndepDraws P (fun _ => unif01) U) {c : UniCat L α ℝ} (hnd : c.vars.Nodup)
    (hne : c.vars ≠ []) {t : ℕ → List (Cat α × ℝ)}
    (ht : ∀ (j : ℕ) (l : L), c.vars[j]? = some l → c.table l = some (t j) ∧
      SameType ((t j).map Prod.fst) ∧ (∀ x ∈ (t j).map Prod.snd, 0 ≤ x) ∧ ((t j).map Prod.snd).sum = 1)
    (hs : 0 ≤ size) (v0 : Cat α) :
    ∀ᵐ ω ∂P, ∃ g, c.sample size (U ω) = .ok g ∧ g.cols = c.vars.length ∧ g.rows.length = size.toNat ∧
      ∀ i < size.toNat, ∃ r, g.rows[i]? = some r ∧ r.length = c.vars.length ∧ ∀ j < c.vars.length,
        r[j]? = some (pickD v0 ((t j).map Prod.snd).sum 0 (t j) (U ω i j)) := by
  have hun : ∀ᵐ ω ∂P, Unit01 (U ω) := by
    have : ∀ᵐ ω ∂P, ∀ j i, 0 ≤ U ω i j ∧ U ω i j < 1 := ae_all_iff.2 fun j => ae_unit hU rfl
    filter_upwards [this] with ω hω i j using hω j i
  filter_upwards [hun] with ω hω
  obtain ⟨g, hg⟩ := UniCat.sample_isOk (c := c) hs hω hnd hne (by
    intro l hl
    obtain ⟨j, hj⟩ := List.mem_iff_getElem?.1 hl
    exact ⟨t j, ht j l hj⟩)
  obtain ⟨_, _, g1, g2, g3, _, _⟩ := UniCat.sample_ok hg
  refine ⟨g, hg, g1, by omega, fun i hi => ?_⟩
  have hil : i < g.rows.length := by omega
  refine ⟨g.rows[i], List.getElem?_eq_getElem hil, g3 _ (List.getElem_mem hil), fun j hj => ?_⟩
  unfold UniCat.sample at hg
  rw [if_neg (not_not.2 hnd)] at hg
  split at hg
  · cases hg
  rename_i cols hcols
  have hcl : ∀ c' ∈ cols, c'.2.length = size.toNat := by
    intro c' hc'
    obtain ⟨li, _, hli⟩ := mapME_mem hcols hc'
    obtain ⟨t, _, _, hch⟩ := UniCat.sampleCol_ok (d := c'.1) (col := c'.2) hli
    exact (npChoice_ok hch).2.2.2.2.1
  obtain ⟨_, _, _, _, h4, _⟩ := frame_ok hg hcl
  have hjl : j < cols.length := by rw [mapME_length hcols, List.length_zipIdx]; exact hj
  obtain ⟨li, hli, hf⟩ := mapME_get hcols (List.getElem?_eq_getElem hjl)
  rw [List.getElem?_zipIdx, List.getElem?_eq_getElem hj] at hli
  simp only [Option.map_some, Option.some.injEq, Nat.zero_add] at hli
  subst hli
  simp only at hf
  obtain ⟨t', ht2, _, hch⟩ := UniCat.sampleCol_ok (d := cols[j].1) (col := cols[j].2) hf
  rw [(ht j _ (List.getElem?_eq_getElem hj)).1] at ht2
  obtain rfl := Option.some.inj ht2
  rw [h4 i j _ cols[j] (List.getElem?_eq_getElem hil) (List.getElem?_eq_getElem hjl)]
  exact npChoice_pickD v0 hch hi

/-- **C74** `UniCategorical.sample`: independent values, each value of the table of its variable with its
probability. -/
theorem C74_uni_cat (hU : IndepDraws P (fun _ => unif01) U) {c : UniCat L α ℝ} (hnd : c.vars.Nodup)
    (hne : c.vars ≠ []) {t : ℕ → List (Cat α × ℝ)}
    (ht : ∀ (j : ℕ) (l : L), c.vars[j]? = some l → c.table l = some (t j) ∧
      SameType ((t j).map Prod.fst) ∧ (∀ x ∈ (t j).map Prod.snd, 0 ≤ x) ∧ ((t j).map Prod.snd).sum = 1)
    (hs : 0 ≤ size) :
    IndepCells P size.toNat c.vars.length (fun ω => c.sample size (U ω)) (fun j => weighted (t j)) := by
  have ht' : ∀ j < c.vars.length, SameType ((t j).map Prod.fst) ∧ (∀ x ∈ (t j).map Prod.snd, 0 ≤ x) ∧
      ((t j).map Prod.snd).sum = 1 := fun j hj => (ht j _ (List.getElem?_eq_getElem hj)).2
  -- a value to complete the functions outside of `[0, 1)`
  obtain ⟨v0⟩ : Nonempty (Cat α) := by
    have hpos : 0 < c.vars.length := List.length_pos_iff.2 hne
    obtain ⟨_, _, h1⟩ := ht' 0 hpos
    cases h : t 0 with
    | nil => rw [h] at h1; simp at h1
    | cons x xs => exact ⟨x.1⟩
  refine indepCells_of hU (h := fun j => pickD v0 ((t j).map Prod.snd).sum 0 (t j)) ?_
    (fun j _ => measurable_pickD _ _ _ _) ?_
  · exact UniCat.sample_cells hU hnd hne ht hs v0
  · intro j
    obtain ⟨_, h1, h2⟩ := ht' j j.2
    exact map_weighted v0 (t j) (fun vq h => h1 _ (List.mem_map.2 ⟨vq, h, rfl⟩)) (by rw [h2]; exact one_pos)

/-- **C74** the univariate categorical model: after learning from any selection, every value of the next
generation is chosen, independently of the others, from the values that the selected individuals have for its
variable, every selected individual being equally likely. -/
theorem C74_UMDAcat (hU : IndepDraws P (fun _ => unif01) U) {c c' : UniCat L α ℝ}
    {data : Gen (List (Cat α))} (hnd : c.vars.Nodup) (hne : c.vars ≠ []) (hr : Rect data.cols data.rows)
    (hd : data.rows ≠ []) (h : c.learn data = .ok c') (hs : 0 ≤ size) :
    IndepCells P size.toNat c.vars.length (fun ω => c'.sample size (U ω))
      (fun j => pickedFrom (column data.rows j)) := by
  obtain ⟨h1, h2⟩ := C27_learn_empirical hnd hr h
  obtain ⟨_, _, h3, _⟩ := UniCat.learn_ok hnd h
  have hex : ∀ j, ∃ t : List (Cat α × ℝ), ∀ l, c.vars[j]? = some l → c'.table l = some t ∧
      IsEmpirical (column data.rows j) t ∧ (column data.rows j).length = data.rows.length ∧
      SameType (t.map Prod.fst) ∧ (∀ x ∈ t.map Prod.snd, 0 ≤ x) ∧ (t.map Prod.snd).sum = 1 := by
    intro j
    cases hj : c.vars[j]? with
    | none => exact ⟨[], fun l hl => by cases hl⟩
    | some l =>
      obtain ⟨t, ht, e1, e2, e3, e4⟩ := h2 j l hj
      obtain ⟨t', ht', ho⟩ := h3 j l hj
      rw [ht] at ht'
      obtain rfl := Option.some.inj ht'
      refine ⟨t, fun l' hl' => ?_⟩
      obtain rfl := Option.some.inj hl'
      refine ⟨ht, e1, e2, ?_, ?_, e4 hd⟩
      · rw [obtain_keys ho]
        have hm : ∀ v ∈ npUnique (column data.rows j), v ∈ column data.rows j := fun v hv =>
          List.mem_dedup.1 ((npUnique_perm _).mem_iff.1 hv)
        rcases (obtain_ok ho).1 with hs | hs
        · exact .inl fun v hv => hs v (hm v hv)
        · exact .inr fun v hv => hs v (hm v hv)
      · intro x hx
        obtain ⟨⟨v, p⟩, hvp, rfl⟩ := List.mem_map.1 hx
        exact (e3 v p hvp).le
  choose t ht using hex
  have hmain := C74_uni_cat (size := size) hU (c := c') (t := t) (by rw [h1]; exact hnd)
    (by rw [h1]; exact hne) (by
      intro j l hj
      rw [h1] at hj
      obtain ⟨k1, _, _, k2, k3, k4⟩ := ht j l hj
      exact ⟨k1, k2, k3, k4⟩) hs
  rw [h1] at hmain
  convert hmain using 2 with j
  obtain ⟨_, k1, k2, _, _, k3⟩ := ht j _ (List.getElem?_eq_getElem j.2)
  refine (weighted_empirical k1 ?_ k3).symm
  intro h0
  rw [h0] at k2
  exact hd (List.length_eq_zero_iff.1 k2.symm)

/-- **C74** `CategoricalSampling.sample`: independent values, each possible value of a variable with its
frequency (divided by the sum of the frequencies, which is 1 up to `2^-26`). -/
theorem C74_cat_init (hU : IndepDraws P (fun _ => unif01) U) {s : CatSpace α ℝ} {n : ℕ} (hn : n ≠ 0)
    {v : ℕ → List (Cat α)} {p : ℕ → List ℝ}
    (hv : ∀ j < n, s.vals[j]? = some (v j) ∧ s.freq[j]? = some (p j) ∧ (v j).length = (p j).length ∧
      (∀ x ∈ p j, 0 ≤ x) ∧ |(p j).sum - 1| ≤ 1 / 2 ^ 26 ∧ (s.objArr = false → SameType (v j)))
    (hs : 0 ≤ size) :
    IndepCells P size.toNat n (fun ω => s.sample n size (U ω)) (fun j => weighted ((v j).zip (p j))) := by
  obtain ⟨v0⟩ : Nonempty (Cat α) := by
    obtain ⟨_, _, h1, _, h2, _⟩ := hv 0 (Nat.pos_of_ne_zero hn)
    cases h : v 0 with
    | nil =>
      have hp : p 0 = [] := List.length_eq_zero_iff.1 (by rw [← h1, h]; rfl)
      have := sum_pos_of_close h2
      rw [hp] at this
      simp at this
    | cons x xs => exact ⟨x⟩
  have hfst : ∀ j < n, ((v j).zip (p j)).map Prod.fst = v j := fun j hj =>
    List.map_fst_zip (hv j hj).2.2.1.le
  have hsnd : ∀ j < n, ((v j).zip (p j)).map Prod.snd = p j := fun j hj =>
    List.map_snd_zip (hv j hj).2.2.1.ge
  refine indepCells_of hU (h := fun j => pickD v0 (((v j).zip (p j)).map Prod.snd).sum 0 ((v j).zip (p j))) ?_
    (fun j _ => measurable_pickD _ _ _ _) ?_
  · have hun : ∀ᵐ ω ∂P, Unit01 (U ω) := by
      have : ∀ᵐ ω ∂P, ∀ j i, 0 ≤ U ω i j ∧ U ω i j < 1 := ae_all_iff.2 fun j => ae_unit hU rfl
      filter_upwards [this] with ω hω i j using hω j i
    filter_upwards [hun] with ω hω
    obtain ⟨g, hg⟩ := CatSpace.sample_isOk (s := s) hn hs hω (fun j hj => ⟨v j, p j, hv j hj⟩)
    obtain ⟨_, g1, g2, g3, _⟩ := CatSpace.sample_ok hg
    refine ⟨g, hg, g1, by omega, fun i hi => ?_⟩
    have hil : i < g.rows.length := by omega
    refine ⟨g.rows[i], List.getElem?_eq_getElem hil, g3 _ (List.getElem_mem hil), fun j hj => ?_⟩
    unfold CatSpace.sample at hg
    split at hg
    · cases hg
    rename_i cols hcols
    have hcl : ∀ c' ∈ cols, c'.2.length = size.toNat := by
      intro c' hc'
      obtain ⟨li, _, hli⟩ := mapME_mem hcols hc'
      obtain ⟨_, _, _, _, _, _, hch⟩ := CatSpace.sampleCol_ok (d := c'.1) (col := c'.2) hli
      exact (npChoice_ok hch).2.2.2.2.1
    obtain ⟨_, _, _, _, h4, _⟩ := frame_ok hg hcl
    have hjl : j < cols.length := by rw [mapME_length hcols, List.length_range]; exact hj
    obtain ⟨li, hli, hf⟩ := mapME_get hcols (List.getElem?_eq_getElem hjl)
    rw [List.getElem?_range hj] at hli
    obtain rfl := Option.some.inj hli
    obtain ⟨v', p', k1, k2, _, _, hch⟩ := CatSpace.sampleCol_ok (d := cols[j].1) (col := cols[j].2) hf
    obtain ⟨e1, e2, _⟩ := hv j hj
    rw [e1] at k1
    rw [e2] at k2
    obtain rfl := Option.some.inj k1
    obtain rfl := Option.some.inj k2
    rw [h4 i j _ cols[j] (List.getElem?_eq_getElem hil) (List.getElem?_eq_getElem hjl)]
    refine npChoice_pickD v0 (u := fun k => U ω k j) ?_ hi
    rw [hfst j hj, hsnd j hj]
    exact hch
  · intro j
    obtain ⟨_, _, _, h1, h2, _⟩ := hv j j.2
    refine map_weighted v0 _ (fun vq h => h1 _ ?_) ?_
    · rw [← hsnd j j.2]; exact List.mem_map.2 ⟨vq, h, rfl⟩
    · rw [hsnd j j.2]; exact sum_pos_of_close h2

end

/-! ### Such draws exist -/

/-- Independent draws with any laws. -/
theorem indepDraws_exist (law : ℕ → Measure ℝ) [∀ j, IsProbabilityMeasure (law j)] :
    IndepDraws (Measure.infinitePi (fun _ : ℕ => Measure.infinitePi law)) law (fun ω => ω) := by
  have hrow : ∀ i : ℕ, (Measure.infinitePi (fun _ : ℕ => Measure.infinitePi law)).map
      (fun ω : ℕ → ℕ → ℝ => ω i) = Measure.infinitePi law := fun i =>
    (measurePreserving_eval_infinitePi (fun _ : ℕ => Measure.infinitePi law) i).map_eq
  have hcell : ∀ i j : ℕ, (Measure.infinitePi (fun _ : ℕ => Measure.infinitePi law)).map
      (fun ω : ℕ → ℕ → ℝ => ω i j) = law j := by
    intro i j
    have : (fun ω : ℕ → ℕ → ℝ => ω i j) = (fun r : ℕ → ℝ => r j) ∘ (fun ω : ℕ → ℕ → ℝ => ω i) := rfl
    rw [this, ← Measure.map_map (by fun_prop) (by fun_prop), hrow]
    exact (measurePreserving_eval_infinitePi law j).map_eq
  refine ⟨fun i j => by fun_prop, ?_, ?_, fun i j =>
    ⟨((measurable_pi_apply j).comp (measurable_pi_apply i)).aemeasurable, hcell i j⟩⟩
  · exact iIndepFun_infinitePi (X := fun _ => id) (fun _ => measurable_id)
  · intro i
    rw [iIndepFun_iff_map_fun_eq_infinitePi_map (fun j => by fun_prop)]
    simp only [hcell]
    exact hrow i

instance : IsProbabilityMeasure unif01 := ⟨by simp [unif01]⟩

/-! ### The probability of a given generation -/

/-- The probability that a sampler with independent cells returns a given generation is the product of the
probabilities of its cells. -/
theorem indepCells_prob {Ω V : Type} [MeasurableSpace Ω] [MeasurableSpace V] [MeasurableSingletonClass V]
    {P : Measure Ω} {size n : ℕ} {draw : Ω → Except PyErr (Gen (List V))} {law : Fin n → Measure V}
    (h : IndepCells P size n draw law) (target : Fin size → Fin n → V) :
    P {ω | ∃ g, draw ω = .ok g ∧ g.rows = List.ofFn (fun i => List.ofFn (target i))} =
      ∏ i, ∏ j, law j {target i j} := by
  obtain ⟨X, h1, h2, h3⟩ := h
  have he : {ω | ∃ g, draw ω = .ok g ∧ g.rows = List.ofFn (fun i => List.ofFn (target i))} =ᵐ[P]
      ⋂ ij : Fin size × Fin n, (X ij) ⁻¹' {target ij.1 ij.2} := by
    filter_upwards [h1] with ω hω
    apply propext
    obtain ⟨g, hg, _, hl, hr⟩ := hω
    change (∃ g, draw ω = .ok g ∧ g.rows = List.ofFn (fun i => List.ofFn (target i))) ↔
      ω ∈ ⋂ ij : Fin size × Fin n, (X ij) ⁻¹' {target ij.1 ij.2}
    simp only [Set.mem_iInter, Set.mem_preimage, Set.mem_singleton_iff, Prod.forall]
    constructor
    · rintro ⟨g', hg', hrows⟩ i j
      rw [hg] at hg'
      obtain rfl := Except.ok.inj hg'
      obtain ⟨r, hri, _, hv⟩ := hr i
      have e1 : g.rows[(i : ℕ)]? = some (List.ofFn (target i)) := by rw [hrows]; simp
      have hri' : g.rows[(i : ℕ)]? = some r := hri
      rw [e1] at hri'
      obtain rfl := Option.some.inj hri'
      have hvj : (List.ofFn (target i))[(j : ℕ)]? = some (X (i, j) ω) := hv j
      simp at hvj
      exact hvj.symm
    · intro hX
      refine ⟨g, hg, ?_⟩
      apply List.ext_getElem?
      intro i
      by_cases hi : i < size
      · obtain ⟨r, hri, hrl, hv⟩ := hr ⟨i, hi⟩
        have hri' : g.rows[i]? = some r := hri
        rw [hri']
        simp only [List.getElem?_ofFn, hi, dif_pos, Option.some.injEq]
        apply List.ext_getElem?
        intro j
        by_cases hj : j < n
        · have hvj : r[j]? = some (X (⟨i, hi⟩, ⟨j, hj⟩) ω) := hv ⟨j, hj⟩
          rw [hvj, hX]
          simp [hj]
        · rw [List.getElem?_eq_none (by omega), List.getElem?_eq_none (by simp; omega)]
      · rw [List.getElem?_eq_none (by omega), List.getElem?_eq_none (by simp; omega)]
  rw [measure_congr he]
  have hmul := h2.meas_iInter (s := fun ij : Fin size × Fin n => (X ij) ⁻¹' {target ij.1 ij.2})
    (fun ij => ⟨{target ij.1 ij.2}, measurableSet_singleton _, rfl⟩)
  rw [hmul, Fintype.prod_prod_type]
  refine Finset.prod_congr rfl fun i _ => Finset.prod_congr rfl fun j _ => ?_
  exact (h3 i j).measure_eq (p := fun x => x ∈ ({target i j} : Set V)) (measurableSet_singleton _)

/-- **C74** the probability that the binary model samples a given generation of zeros and ones is the product,
over its bits, of `pm[j]` for a one and `1 - pm[j]` for a zero. -/
theorem C74_binary_generation {Ω : Type} [MeasurableSpace Ω] {P : Measure Ω} {U : Ω → Draws ℝ}
    (hU : IndepDraws P (fun _ => unif01) U) {b : UniBin ℝ} (hp : b.p.length = b.n)
    (h01 : ∀ x ∈ b.p, 0 ≤ x ∧ x ≤ 1) {m : ℕ} (target : Fin m → Fin b.n → Bool) :
    P {ω | ∃ g, b.sample m (U ω) = .ok g ∧
        g.rows = List.ofFn (fun i => List.ofFn (fun j => if target i j then (1 : ℝ) else 0))} =
      ∏ i, ∏ j : Fin b.n, ENNReal.ofReal (if target i j then b.p.getD j 0 else 1 - b.p.getD j 0) := by
  have h := indepCells_prob (C74_uni_bin (size := m) hU hp h01 (by omega))
    (fun i j => if target i j then (1 : ℝ) else 0)
  refine Eq.trans h ?_
  refine Finset.prod_congr rfl fun i _ => Finset.prod_congr rfl fun j _ => ?_
  cases target i j <;> simp [coin]

/-- Two bits with probabilities 1/3 and 1/4: the individual `10` has probability 1/4. -/
example : (Measure.infinitePi fun _ : ℕ => Measure.infinitePi fun _ : ℕ => unif01)
    {ω : ℕ → ℕ → ℝ | ∃ g, (⟨2, 0, 1, [1/3, 1/4]⟩ : UniBin ℝ).sample 1 ω = .ok g ∧ g.rows = [[1, 0]]} =
      ENNReal.ofReal (1 / 4) := by
  have h := C74_binary_generation (indepDraws_exist (fun _ => unif01))
    (b := ⟨2, 0, 1, [1/3, 1/4]⟩) rfl (by intro x hx; simp at hx; rcases hx with rfl | rfl <;> norm_num)
    (m := 1) (fun _ j => j.1 = 0)
  have hrows : (List.ofFn (fun _ : Fin 1 => List.ofFn (fun j : Fin 2 => if decide (j.1 = 0) then (1 : ℝ) else 0))) =
      [[1, 0]] := by simp [List.ofFn_succ]
  refine (Eq.trans ?_ h).trans ?_
  · rw [hrows]; rfl
  · rw [Fin.prod_univ_one]
    change ∏ j : Fin 2, ENNReal.ofReal (if decide (j.1 = 0) then ([1/3, 1/4] : List ℝ).getD j 0 else
      1 - ([1/3, 1/4] : List ℝ).getD j 0) = _
    rw [Fin.prod_univ_two, ← ENNReal.ofReal_mul (by simp)]
    norm_num

/-- Learning from `(1, 10), (3, 10)` with lower bound 1/2: the second variable of every individual of the next
generation is normal with mean 10 and standard deviation 1/2. -/
example : ∃ b', (UniGauss.new 2 (1/2) : UniGauss ℝ).learn Real.sqrt ⟨.float, 2, [[1, 10], [3, 10]]⟩ = .ok b' ∧
    ∃ X : Fin 4 × Fin 2 → (ℕ → ℕ → ℝ) → ℝ,
      iIndepFun X (Measure.infinitePi fun _ : ℕ => Measure.infinitePi fun _ : ℕ => gaussianReal 0 1) ∧
      HasLaw (X (3, 1)) (gaussianReal 10 ⟨(1/2) ^ 2, sq_nonneg _⟩)
        (Measure.infinitePi fun _ : ℕ => Measure.infinitePi fun _ : ℕ => gaussianReal 0 1) := by
  obtain ⟨b', h, X, _, h1, h2⟩ := C74_UMDAc (size := 4) (indepDraws_exist (fun _ => gaussianReal 0 1))
    (b := UniGauss.new 2 (1/2)) (g := ⟨.float, 2, [[1, 10], [3, 10]]⟩) (by simp [UniGauss.new])
    (by simp [UniGauss.new]) (by simp) (by norm_num)
  refine ⟨b', h, X, h1, ?_⟩
  have h3 := h2 (3 : Fin 4) (1 : Fin 2)
  have hm : mean (col ([[1, 10], [3, 10]] : List (List ℝ)) 1) = 10 := by norm_num [mean, col]
  have hv : Spec.variance (col ([[1, 10], [3, 10]] : List (List ℝ)) 1) = 0 := by
    norm_num [Spec.variance, mean, col]
  have e : gaussianReal 10 ⟨(1/2) ^ 2, sq_nonneg _⟩ = gaussianReal (mean (col ([[1, 10], [3, 10]] : List (List ℝ)) 1))
    ⟨max (Real.sqrt (Spec.variance (col ([[1, 10], [3, 10]] : List (List ℝ)) 1))) (1/2) ^ 2, sq_nonneg _⟩ := by
    rw [hm]
    congr 1
    apply NNReal.eq
    change ((1 : ℝ)/2) ^ 2 =
      max (Real.sqrt (Spec.variance (col ([[1, 10], [3, 10]] : List (List ℝ)) 1))) (1/2) ^ 2
    rw [hv, Real.sqrt_zero, max_eq_right (by norm_num)]
  rw [e]
  exact h3

/-- Learning from the selected values 7, 5, 7: the value 7 of the next generation has probability 2/3. -/
example : ∃ c' : UniCat ℕ ℕ ℝ, UniCat.learn (UniCat.new [0])
    { dt := .object, cols := 1, rows := [[.str 7], [.str 5], [.str 7]] } = .ok c' ∧
    (Measure.infinitePi fun _ : ℕ => Measure.infinitePi fun _ : ℕ => unif01)
      {ω : ℕ → ℕ → ℝ | ∃ g, c'.sample 1 ω = .ok g ∧ g.rows = [[.str 7]]} = 2 / 3 := by
  obtain ⟨c', hc⟩ := (C27_learn_ok_iff (K := ℝ) (c := UniCat.new [0]) (data := { dt := .object, cols := 1, rows :=
    [[Cat.str 7], [.str 5], [.str 7]] }) (by simp [UniCat.new])).2 ⟨by simp [UniCat.new], by
      intro k hk
      left
      have : k = 0 := by simp [UniCat.new] at hk; omega
      subst this
      simp [column, Cat.isStr]⟩
  refine ⟨c', hc, ?_⟩
  have h := indepCells_prob (C74_UMDAcat (size := 1) (indepDraws_exist (fun _ => unif01)) (by simp [UniCat.new])
    (by simp [UniCat.new]) (by simp [Rect]) (by simp) hc (by norm_num)) (fun _ _ => Cat.str 7)
  refine (Eq.trans ?_ h).trans ?_
  · rfl
  · change ∏ _i : Fin 1, ∏ _j : Fin 1, _ = _
    rw [Fin.prod_univ_one, Fin.prod_univ_one]
    simp [pickedFrom, column]
    rw [ENNReal.div_eq_inv_mul, mul_two]

end Verif
