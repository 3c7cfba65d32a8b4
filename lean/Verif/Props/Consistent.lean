/-
C95: a model learned from its own samples is the model the samples came from.
-/
import Verif.Lemmas.Slln
import Verif.Spec.Consistent
import Verif.Props.Law
import Verif.Props.MultiGauss

set_option linter.unusedSectionVars false

namespace Verif

open MeasureTheory ProbabilityTheory Spec Filter Topology

section
variable {Ω : Type} [MeasurableSpace Ω] {P : Measure Ω} {U : Ω → Draws ℝ}

theorem col_range (N : ℕ) (row : ℕ → List ℝ) (j : ℕ) :
    col ((List.range N).map row) j = (List.range N).map (fun i => (row i).getD j 0) := by
  simp [col, Function.comp_def]

theorem learnsTo_of {R M ι : Type} {sample : ℕ → Ω → Except PyErr (Gen R)} {learn : Gen R → Except PyErr M}
    {param : M → ι → ℝ} {target : ι → ℝ} (m0 : M) (N₀ : ℕ) {val : Ω → ℕ → ι → ℝ}
    (h : ∀ N ≥ N₀, ∀ᵐ ω ∂P, ∃ g m, sample N ω = .ok g ∧ learn g = .ok m ∧ ∀ i, param m i = val ω N i)
    (ht : ∀ᵐ ω ∂P, ∀ i, Tendsto (fun N => val ω N i) atTop (𝓝 (target i))) :
    LearnsTo P sample learn param target := by
  have h' : ∀ᵐ ω ∂P, ∀ N, N ≥ N₀ → ∃ g m, sample N ω = .ok g ∧ learn g = .ok m ∧ ∀ i, param m i = val ω N i := by
    refine ae_all_iff.2 fun N => ?_
    by_cases hN : N ≥ N₀
    · filter_upwards [h N hN] with ω hω _ using hω
    · exact Eventually.of_forall fun ω h => absurd h hN
  filter_upwards [h', ht] with ω hω htω
  have : Nonempty M := ⟨m0⟩
  have : Nonempty (Gen R) := ⟨⟨.int, 0, []⟩⟩
  choose! g m hg hm hv using hω
  refine ⟨m, ⟨N₀, fun N hN => ⟨g N, hg N hN, hm N hN⟩⟩, fun i => ?_⟩
  refine (htω i).congr' ?_
  filter_upwards [eventually_ge_atTop N₀] with N hN
  exact (hv N hN i).symm

theorem integral_ltCoin {p : ℝ} (h0 : 0 ≤ p) (h1 : p ≤ 1) :
    Integrable (fun u : ℝ => if u < p then (1 : ℝ) else 0) unif01 ∧
      ∫ u, (if u < p then (1 : ℝ) else 0) ∂unif01 = p := by
  have he : (fun u : ℝ => if u < p then (1 : ℝ) else 0) = (Set.Iio p).indicator (fun _ => 1) := by
    funext u
    simp [Set.indicator]
  have : IsFiniteMeasure unif01 := by unfold unif01; infer_instance
  rw [he]
  refine ⟨(integrable_const _).indicator measurableSet_Iio, ?_⟩
  rw [integral_indicator_const _ measurableSet_Iio]
  unfold unif01 Measure.real
  rw [Measure.restrict_apply measurableSet_Iio]
  have : Set.Iio p ∩ Set.Ico 0 1 = Set.Ico 0 p := by
    ext x; simp only [Set.mem_inter_iff, Set.mem_Iio, Set.mem_Ico]
    constructor
    · rintro ⟨a, b, c⟩; exact ⟨b, a⟩
    · rintro ⟨a, b⟩; exact ⟨b, a, by linarith⟩
  rw [this, Real.volume_Ico]
  simp [h0]

/-- **C95** `UniBin`: the learned probabilities tend to the probabilities of the model. -/
theorem C95_uni_bin (hU : IndepDraws P (fun _ => unif01) U) {b : UniBin ℝ} (hp : b.p.length = b.n)
    (h01 : 0 ≤ b.lb ∧ b.lb < b.ub ∧ b.ub ≤ 1) (hb : ∀ x ∈ b.p, b.lb ≤ x ∧ x ≤ b.ub) :
    LearnsTo P (fun N ω => b.sample N (U ω)) (fun g => b.learn id g.rows)
      (fun m (j : Fin b.n) => m.p.getD j 0) (fun j => b.p.getD j 0) := by
  have hj' : ∀ j : Fin b.n, b.lb ≤ b.p.getD j 0 ∧ b.p.getD j 0 ≤ b.ub := by
    intro j
    have hj : j.1 < b.p.length := by rw [hp]; exact j.2
    have := hb _ (List.getElem_mem hj)
    rwa [List.getD_eq_getElem?_getD, List.getElem?_eq_getElem hj]
  refine learnsTo_of b 1 (val := fun ω N j => clip b.lb b.ub
    ((∑ i ∈ Finset.range N, if U ω i j < b.p.getD j 0 then (1 : ℝ) else 0) / N)) ?_ ?_
  · intro N hN
    refine Eventually.of_forall fun ω => ?_
    have hsm := UniBin.sample_of_length (ω := U ω) (size := (N : ℤ)) hp (by omega)
    rcases C20_learn_total id b ((List.range N).map (fun i => binRow b.p b.n b.n (U ω i))) with h | ⟨_, m, hm⟩
    · have := h.1
      simp at this
      omega
    refine ⟨_, m, hsm, by simpa using hm, fun j => ?_⟩
    obtain ⟨_, _, _, _, h5⟩ := C20_learn_frequencies (n := b.n) h01.2.1 (by
      intro r hr
      obtain ⟨i, _, rfl⟩ := List.mem_map.1 hr
      exact binRow_length _ _ _ _) hm
    rw [List.getD_eq_getElem?_getD, h5 j j.2, col_range, mean_map_range]
    simp only [Option.getD_some, id]
    congr 2
    apply Finset.sum_congr rfl
    intro i _
    rw [List.getD_eq_getElem?_getD, binRow_getElem? _ _ _ _ _ j.2]
    have h1 : (if b.n = 1 then 0 else j.1) = j := by split <;> omega
    have h2 : (if b.p.length = 1 then 0 else j.1) = j := by split <;> omega
    rw [h1, h2]
    rfl
  · refine ae_all_iff.2 fun j => ?_
    obtain ⟨hi, he⟩ := integral_ltCoin (h01.1.trans (hj' j).1) ((hj' j).2.trans h01.2.2)
    filter_upwards [slln_cell hU j (Measurable.ite measurableSet_Iio measurable_const measurable_const) hi] with ω hω
    rw [he] at hω
    have hc : Continuous (clip b.lb b.ub) := by unfold clip; fun_prop
    have := (hc.tendsto _).comp hω
    have e : clip b.lb b.ub (b.p.getD j 0) = b.p.getD j 0 := by
      unfold clip
      rw [min_eq_right (hj' j).2, max_eq_right (hj' j).1]
    rw [e] at this
    exact this

/-- **C95** `UniGauss`: the learned means and standard deviations tend to those of the model. -/
theorem C95_uni_gauss (hU : IndepDraws P (fun _ => gaussianReal 0 1) U) {b : UniGauss ℝ}
    (hm : b.mean.length = b.n) (hsd : b.std.length = b.n) (hpos : ∀ s ∈ b.std, 0 ≤ s ∧ b.lb ≤ s) :
    LearnsTo P (fun N ω => b.sample N (U ω)) (fun g => b.learn Real.sqrt g)
      (fun m => Sum.elim (fun j : Fin b.n => m.mean.getD j 0) (fun j : Fin b.n => m.std.getD j 0))
      (Sum.elim (fun j => b.mean.getD j 0) (fun j => b.std.getD j 0)) := by
  have hg : b.Good b.n b.lb := ⟨rfl, rfl, hm, hsd, fun s h => (hpos s h).1⟩
  have hstd : ∀ j : Fin b.n, 0 ≤ b.std.getD j 0 ∧ b.lb ≤ b.std.getD j 0 := by
    intro j
    have hj : j.1 < b.std.length := by rw [hsd]; exact j.2
    have := hpos _ (List.getElem_mem hj)
    rwa [List.getD_eq_getElem?_getD, List.getElem?_eq_getElem hj]
  refine learnsTo_of b 1 (val := fun ω N => Sum.elim
    (fun j => mean ((List.range N).map (fun i => b.mean.getD j 0 + b.std.getD j 0 * U ω i j)))
    (fun j => max (Real.sqrt (Spec.variance ((List.range N).map (fun i =>
      b.mean.getD j 0 + b.std.getD j 0 * U ω i j)))) b.lb)) ?_ ?_
  · intro N hN
    refine Eventually.of_forall fun ω => ?_
    have hsm := UniGauss.sample_eq hg (size := (N : ℤ)) (by omega) (U ω)
    obtain ⟨m, h1, h2, h3, h4, h5, h6⟩ := C24_learn (b := b) real_isSqrt
      (g := { dt := .float, cols := b.n, rows := (List.range N).map (fun i => (List.range b.n).map (fun j =>
          b.mean.getD j 0 + b.std.getD j 0 * U ω i j)) }) (by
        intro h0
        exact ⟨List.length_eq_zero_iff.1 (by omega), List.length_eq_zero_iff.1 (by omega)⟩) le_rfl (by
        simp; omega)
    have hcol : ∀ j : Fin b.n, col ((List.range N).map (fun i => (List.range b.n).map (fun j =>
          b.mean.getD j 0 + b.std.getD j 0 * U ω i j))) j = (List.range N).map (fun i =>
          b.mean.getD j 0 + b.std.getD j 0 * U ω i j) := by
      intro j
      rw [col_range]
      apply List.map_congr_left
      intro i _
      rw [List.getD_eq_getElem?_getD (l := List.map _ _), List.getElem?_map, List.getElem?_range j.2]
      rfl
    refine ⟨_, m, hsm, by simpa using h1, ?_⟩
    rintro (j | j)
    · have := (h6 j j.2).1
      simp only [Sum.elim_inl]
      rw [List.getD_eq_getElem?_getD, this, hcol]
      rfl
    · obtain ⟨s, k2, k3, k4⟩ := (h6 j j.2).2
      simp only [Sum.elim_inr]
      rw [List.getD_eq_getElem?_getD, k4]
      rw [hcol] at k3
      rw [← k3, Real.sqrt_mul_self k2]
      rfl
  · have haff : ∀ (j : Fin b.n) (z : ℕ → ℝ), b.mean.getD j 0 + b.std.getD j 0 * z j =
        affine b.n (b.mean.getD j 0) (fun k => if k = j then b.std.getD j 0 else 0) z := by
      intro j z
      unfold affine
      simp [Finset.sum_ite_eq', mul_comm]
    have hall : ∀ᵐ ω ∂P, ∀ j : Fin b.n,
        Tendsto (fun N : ℕ => (∑ i ∈ Finset.range N, (b.mean.getD j 0 + b.std.getD j 0 * U ω i j)) / N) atTop
          (𝓝 (b.mean.getD j 0)) ∧
        Tendsto (fun N : ℕ => (∑ i ∈ Finset.range N, (b.mean.getD j 0 + b.std.getD j 0 * U ω i j) *
          (b.mean.getD j 0 + b.std.getD j 0 * U ω i j)) / N) atTop
          (𝓝 (b.mean.getD j 0 * b.mean.getD j 0 + b.std.getD j 0 * b.std.getD j 0)) := by
      refine ae_all_iff.2 fun j => ?_
      simp only [haff]
      filter_upwards [slln_affine hU b.n (b.mean.getD j 0) (fun k => if k = j then b.std.getD j 0 else 0),
        slln_affine_mul hU b.n (b.mean.getD j 0) (b.mean.getD j 0) (fun k => if k = j then b.std.getD j 0 else 0)
          (fun k => if k = j then b.std.getD j 0 else 0)] with ω h1 h2
      refine ⟨h1, ?_⟩
      convert h2 using 3
      simp [Finset.sum_ite_eq']
    filter_upwards [hall] with ω hω
    rintro (j | j)
    · simp only [Sum.elim_inl, mean_map_range]
      exact (hω j).1
    · simp only [Sum.elim_inr]
      have hv := tendsto_variance (hω j).1 (hω j).2
      have := ((Real.continuous_sqrt.tendsto _).comp hv).max (tendsto_const_nhds (x := b.lb))
      rw [Real.sqrt_mul_self (hstd j).1, max_eq_left (hstd j).2] at this
      exact this

/-- **C95** `MultiGauss` (partial): the means tend to the means of the model, the covariances of different
variables to those of the model, if these are within `[lower, upper]`.  Missing: on the diagonal the learned
matrix tends to the standard deviations of the model, not to its variances. -/
theorem C95_multi_gauss_partial (hU : IndepDraws P (fun _ => gaussianReal 0 1) U) {b : MultiGauss ℝ}
    (h2 : 2 ≤ b.n) (hm : b.means.length = b.n) (hr : b.cov.length = b.n) (hsq : Rect b.n b.cov)
    {fac : List (List ℝ) → List (List ℝ)} (hsvd : IsSvdRoot b.n (entry b.cov) (entry (fac b.cov)))
    (hsym : ∀ i < b.n, ∀ j < b.n, entry b.cov i j = entry b.cov j i) (hpsd : PSD b.n (entry b.cov))
    (hlu : b.lb ≤ b.ub) :
    LearnsTo P (fun N ω => b.sample fac N (U ω)) (fun g => b.learn Real.sqrt g)
      (fun m => Sum.elim (fun j : Fin b.n => m.means.getD j 0)
        (fun ij : Fin b.n × Fin b.n => entry m.cov ij.1 ij.2))
      (Sum.elim (fun j => b.means.getD j 0) (fun ij => if ij.1 = ij.2 then Real.sqrt (entry b.cov ij.1 ij.1)
        else clip b.lb b.ub (entry b.cov ij.1 ij.2))) := by
  have hgram := (svdRoot_gram_iff hsym hsvd).2 hpsd
  have hg : b.Good b.n := ⟨rfl, hm, hr, hsq⟩
  set x : Ω → Fin b.n → ℕ → ℝ := fun ω j i =>
    affine b.n (b.means.getD j 0) (fun k => entry (fac b.cov) k j) (U ω i) with hx
  refine learnsTo_of b 2 (val := fun ω N => Sum.elim (fun j => mean ((List.range N).map (x ω j)))
    (fun ij => if ij.1 = ij.2 then Real.sqrt (Spec.variance ((List.range N).map (x ω ij.1)))
      else clip b.lb b.ub (Spec.covariance ((List.range N).map (x ω ij.1)) ((List.range N).map (x ω ij.2))))) ?_ ?_
  · intro N hN
    refine Eventually.of_forall fun ω => ?_
    have hsm := MultiGauss.sample_eq (fac := fac) hg (size := (N : ℤ)) (by omega) (U ω)
    obtain ⟨m, h1, _, _, _, h5, h6⟩ := C26_learn_partial (b := b) real_isSqrt
      (g := ⟨.float, b.n, (List.range N).map (fun i => (List.range b.n).map (fun j => b.means.getD j 0 +
          ((List.range b.n).map (fun k => U ω i k * entry (fac b.cov) k j)).sum))⟩) rfl h2 (by simpa using hN) hlu
    have hcol : ∀ j : Fin b.n, col ((List.range N).map (fun i => (List.range b.n).map (fun j => b.means.getD j 0 +
          ((List.range b.n).map (fun k => U ω i k * entry (fac b.cov) k j)).sum))) j =
        (List.range N).map (x ω j) := by
      intro j
      rw [col_range]
      apply List.map_congr_left
      intro i _
      rw [List.getD_eq_getElem?_getD (l := List.map _ _), List.getElem?_map, List.getElem?_range j.2, hx]
      simp only [Option.map_some, Option.getD_some, affine, sum_range_map]
    refine ⟨_, m, hsm, by simpa using h1, ?_⟩
    rintro (j | ⟨i, j⟩)
    · simp only [Sum.elim_inl]
      rw [List.getD_eq_getElem?_getD, h5 j j.2, hcol]
      rfl
    · simp only [Sum.elim_inr]
      obtain ⟨_, k2, k3⟩ := h6 i i.2 j j.2
      split
      · rename_i hij
        subst hij
        rw [← hcol, ← k3.2, Real.sqrt_mul_self k3.1]
      · rename_i hij
        rw [(k2 (fun h => hij (Fin.ext h))).1, hcol, hcol]
  · have h1 : ∀ᵐ ω ∂P, ∀ j, Tendsto (fun N : ℕ => (∑ i ∈ Finset.range N, x ω j i) / N) atTop
        (𝓝 (b.means.getD j 0)) := ae_all_iff.2 fun j => slln_affine hU _ _ _
    have h2 : ∀ᵐ ω ∂P, ∀ ij : Fin b.n × Fin b.n, Tendsto (fun N : ℕ => (∑ i ∈ Finset.range N,
        x ω ij.1 i * x ω ij.2 i) / N) atTop
        (𝓝 (b.means.getD ij.1 0 * b.means.getD ij.2 0 + entry b.cov ij.1 ij.2)) := by
      refine ae_all_iff.2 fun ij => ?_
      have := slln_affine_mul hU b.n (b.means.getD ij.1 0) (b.means.getD ij.2 0)
        (fun k => entry (fac b.cov) k ij.1) (fun k => entry (fac b.cov) k ij.2)
      rwa [hgram ij.1 ij.1.2 ij.2 ij.2.2] at this
    filter_upwards [h1, h2] with ω w1 w2
    rintro (j | ⟨i, j⟩)
    · simp only [Sum.elim_inl, mean_map_range]
      exact w1 j
    · simp only [Sum.elim_inr]
      by_cases hij : i = j
      · subst hij
        simp only [if_true]
        exact (Real.continuous_sqrt.tendsto _).comp (tendsto_variance (w1 i) (w2 (i, i)))
      · simp only [if_neg hij]
        have hc : Continuous (clip b.lb b.ub) := by unfold clip; fun_prop
        exact (hc.tendsto _).comp (tendsto_covariance (w1 i) (w1 j) (w2 (i, j)))

/-- The limit is unique. -/
theorem learnsTo_unique [NeZero P] {R M ι : Type} {sample : ℕ → Ω → Except PyErr (Gen R)}
    {learn : Gen R → Except PyErr M} {param : M → ι → ℝ} {t t' : ι → ℝ} (h : LearnsTo P sample learn param t)
    (h' : LearnsTo P sample learn param t') : t = t' := by
  obtain ⟨ω, ⟨m, ⟨N₀, hm⟩, ht⟩, m', ⟨N₀', hm'⟩, ht'⟩ := (h.and h').exists
  funext i
  refine tendsto_nhds_unique (ht i) ((ht' i).congr' ?_)
  filter_upwards [eventually_ge_atTop N₀, eventually_ge_atTop N₀'] with N h1 h2
  obtain ⟨g, hg, hl⟩ := hm N h1
  obtain ⟨g', hg', hl'⟩ := hm' N h2
  rw [hg] at hg'
  obtain rfl := Except.ok.inj hg'
  rw [hl] at hl'
  rw [Except.ok.inj hl']

/-- **C95** `MultiGauss`: the learned model tends to the model exactly when all variances of the model are 0 or 1
and all its covariances are within `[lower, upper]`. -/
theorem C95_multi_gauss_iff (hU : IndepDraws P (fun _ => gaussianReal 0 1) U) {b : MultiGauss ℝ}
    (h2 : 2 ≤ b.n) (hm : b.means.length = b.n) (hr : b.cov.length = b.n) (hsq : Rect b.n b.cov)
    {fac : List (List ℝ) → List (List ℝ)} (hsvd : IsSvdRoot b.n (entry b.cov) (entry (fac b.cov)))
    (hsym : ∀ i < b.n, ∀ j < b.n, entry b.cov i j = entry b.cov j i) (hpsd : PSD b.n (entry b.cov))
    (hlu : b.lb ≤ b.ub) :
    LearnsTo P (fun N ω => b.sample fac N (U ω)) (fun g => b.learn Real.sqrt g)
      (fun m => Sum.elim (fun j : Fin b.n => m.means.getD j 0)
        (fun ij : Fin b.n × Fin b.n => entry m.cov ij.1 ij.2))
      (Sum.elim (fun j => b.means.getD j 0) (fun ij => entry b.cov ij.1 ij.2)) ↔
    (∀ i < b.n, entry b.cov i i = 0 ∨ entry b.cov i i = 1) ∧
      ∀ i < b.n, ∀ j < b.n, i ≠ j → b.lb ≤ entry b.cov i j ∧ entry b.cov i j ≤ b.ub := by
  have hlim := C95_multi_gauss_partial hU h2 hm hr hsq hsvd hsym hpsd hlu
  constructor
  · intro h
    have : NeZero P := ⟨by
      intro h0
      have := (hU.law 0 0).map_eq
      rw [h0, Measure.map_zero] at this
      exact (IsProbabilityMeasure.ne_zero (gaussianReal 0 1)) this.symm⟩
    have he := learnsTo_unique hlim h
    refine ⟨fun i hi => ?_, fun i hi j hj hij => ?_⟩
    · have h1 := congrFun he (.inr (⟨i, hi⟩, ⟨i, hi⟩))
      simp only [Sum.elim_inr, if_true] at h1
      have h0 : 0 ≤ entry b.cov i i := by rw [← h1]; exact Real.sqrt_nonneg _
      have h3 := Real.mul_self_sqrt h0
      rw [h1] at h3
      rcases mul_eq_zero.1 (by linear_combination h3 : entry b.cov i i * (entry b.cov i i - 1) = 0) with h | h
      · exact .inl h
      · exact .inr (by linarith)
    · have h1 := congrFun he (.inr (⟨i, hi⟩, ⟨j, hj⟩))
      simp only [Sum.elim_inr, Fin.mk.injEq, if_neg hij] at h1
      rw [← h1]
      exact ⟨le_max_left _ _, max_le hlu (min_le_left _ _)⟩
  · rintro ⟨hd, ho⟩
    convert hlim using 2
    funext ij
    split
    · rename_i hij
      rw [← hij]
      rcases hd ij.1 ij.1.2 with h | h <;> rw [h] <;> simp
    · rename_i hij
      obtain ⟨k1, k2⟩ := ho ij.1 ij.1.2 ij.2 ij.2.2 (fun h => hij (Fin.ext h))
      unfold clip
      rw [min_eq_right k2, max_eq_right k1]

/-! ### Categorical variables -/

theorem probOf_empirical {V : Type} [DecidableEq V] {col : List V} {t : List (V × ℝ)} (h : IsEmpirical col t)
    (hne : col ≠ []) (v : V) : probOf t v = (col.count v : ℝ) / col.length := by
  have hlen : (col.length : ℝ) ≠ 0 := by exact_mod_cast (List.length_pos_iff.2 hne).ne'
  unfold probOf
  by_cases hv : v ∈ col
  · obtain ⟨⟨w, q⟩, hq, rfl⟩ := List.mem_map.1 ((h.observed v).2 hv)
    have hf : t.filter (fun vq => vq.1 = w) = [(w, q)] := by
      have hnd := h.distinct
      clear h hv hne
      induction t with
      | nil => cases hq
      | cons x t ih =>
        rw [List.map_cons, List.nodup_cons] at hnd
        rcases List.mem_cons.1 hq with rfl | hq'
        · rw [List.filter_cons_of_pos (by simp)]
          congr 1
          rw [List.filter_eq_nil_iff]
          intro y hy
          simp only [decide_eq_true_eq]
          intro he
          exact hnd.1 (List.mem_map.2 ⟨y, hy, he⟩)
        · rw [List.filter_cons_of_neg]
          · exact ih hq' hnd.2
          · simp only [decide_eq_true_eq]
            intro he
            exact hnd.1 (he ▸ List.mem_map.2 ⟨_, hq', rfl⟩)
    simp only
    rw [hf]
    have := h.freq w q hq
    rw [List.count_eq_length_filter]
    have hc : (col.filter (fun x => x == w)).length = (col.filter (fun x => x = w)).length := by
      congr 1
    rw [hc, ← this]
    simp [hlen]
  · have hf : t.filter (fun vq => vq.1 = v) = [] := by
      rw [List.filter_eq_nil_iff]
      intro y hy
      simp only [decide_eq_true_eq]
      intro he
      exact hv ((h.observed v).1 (he ▸ List.mem_map.2 ⟨y, hy, rfl⟩))
    rw [hf, List.count_eq_zero_of_not_mem hv]
    simp

theorem count_range {V : Type} [DecidableEq V] (N : ℕ) (x : ℕ → V) (v : V) :
    ((((List.range N).map x).count v : ℕ) : ℝ) = ∑ i ∈ Finset.range N, if x i = v then (1 : ℝ) else 0 := by
  rw [← sum_range_map]
  induction List.range N with
  | nil => simp
  | cons a l ih =>
    rw [List.map_cons, List.map_cons, List.sum_cons, ← ih, List.count_cons]
    by_cases h : x a = v
    · simp [h, add_comm]
    · simp [h]

theorem integral_pickD {V : Type} [MeasurableSpace V] [MeasurableSingletonClass V] [DecidableEq V] (v0 : V)
    (t : List (V × ℝ)) (hp : ∀ vq ∈ t, 0 ≤ vq.2) (h1 : (t.map Prod.snd).sum = 1) (v : V) :
    Measurable (fun u => if pickD v0 (t.map Prod.snd).sum 0 t u = v then (1 : ℝ) else 0) ∧
    Integrable (fun u => if pickD v0 (t.map Prod.snd).sum 0 t u = v then (1 : ℝ) else 0) unif01 ∧
      ∫ u, (if pickD v0 (t.map Prod.snd).sum 0 t u = v then (1 : ℝ) else 0) ∂unif01 = probOf t v := by
  set f := pickD v0 (t.map Prod.snd).sum 0 t with hf
  have hm : Measurable f := measurable_pickD _ _ _ _
  have hs : MeasurableSet (f ⁻¹' {v}) := hm (measurableSet_singleton v)
  have he : (fun u => if f u = v then (1 : ℝ) else 0) = (f ⁻¹' {v}).indicator (fun _ => 1) := by
    funext u
    simp [Set.indicator]
  have : IsFiniteMeasure unif01 := by unfold unif01; infer_instance
  rw [he]
  refine ⟨measurable_const.indicator hs, (integrable_const _).indicator hs, ?_⟩
  rw [integral_indicator_const _ hs]
  have hmap : unif01 (f ⁻¹' {v}) = weighted t {v} := by
    rw [← map_weighted v0 t hp (by rw [h1]; exact one_pos), Measure.map_apply hm (measurableSet_singleton v)]
  unfold Measure.real
  rw [hmap]
  unfold weighted probOf
  rw [h1]
  clear hmap he hs hm hf f h1
  rw [smul_eq_mul, mul_one]
  have key : (t.map (fun vq => ENNReal.ofReal (vq.2 / 1) • Measure.dirac vq.1)).sum {v} =
      ENNReal.ofReal ((t.filter (fun vq => vq.1 = v)).map Prod.snd).sum ∧
      0 ≤ ((t.filter (fun vq => vq.1 = v)).map Prod.snd).sum := by
    induction t with
    | nil => simp
    | cons x t ih =>
      obtain ⟨i1, i2⟩ := ih (fun vq h => hp vq (List.mem_cons_of_mem _ h))
      have hx := hp x List.mem_cons_self
      rw [List.map_cons, List.sum_cons, Measure.add_apply, i1, Measure.smul_apply,
        Measure.dirac_apply' _ (measurableSet_singleton v)]
      by_cases hxv : x.1 = v
      · rw [List.filter_cons_of_pos (by simpa using hxv)]
        simp only [List.map_cons, List.sum_cons]
        refine ⟨?_, by positivity⟩
        rw [ENNReal.ofReal_add hx i2]
        simp [hxv]
      · rw [List.filter_cons_of_neg (by simpa using hxv)]
        simp [hxv, i2]
  rw [key.1, ENNReal.toReal_ofReal key.2]

variable {α L : Type} [LinearOrder α] [DecidableEq L]

/-- **C95** `UniCategorical`: the learned probability of every value of every variable tends to the one of the
model (0 for a value that the model does not know). -/
theorem C95_uni_cat (hU : IndepDraws P (fun _ => unif01) U) {c : UniCat L α ℝ} (hnd : c.vars.Nodup)
    (hne : c.vars ≠ []) {t : ℕ → List (Cat α × ℝ)}
    (ht : ∀ (j : ℕ) (l : L), c.vars[j]? = some l → c.table l = some (t j) ∧
      SameType ((t j).map Prod.fst) ∧ (∀ x ∈ (t j).map Prod.snd, 0 ≤ x) ∧ ((t j).map Prod.snd).sum = 1) :
    LearnsTo P (fun N ω => c.sample N (U ω)) (fun g => c.learn g)
      (fun m (lv : {l // l ∈ c.vars} × Cat α) => probOf ((m.table lv.1).getD []) lv.2)
      (fun lv => probOf ((c.table lv.1).getD []) lv.2) := by
  obtain ⟨v0⟩ : Nonempty (Cat α) := by
    have hpos : 0 < c.vars.length := List.length_pos_iff.2 hne
    obtain ⟨_, _, _, h1⟩ := ht 0 _ (List.getElem?_eq_getElem hpos)
    cases h : t 0 with
    | nil => rw [h] at h1; simp at h1
    | cons x xs => exact ⟨x.1⟩
  have hidx : ∀ l : {l // l ∈ c.vars}, ∃ j, c.vars[j]? = some l.1 := fun l => List.mem_iff_getElem?.1 l.2
  choose idx hidx using hidx
  refine learnsTo_of c 1 (val := fun ω N lv => (∑ i ∈ Finset.range N,
    if pickD v0 ((t (idx lv.1)).map Prod.snd).sum 0 (t (idx lv.1)) (U ω i (idx lv.1)) = lv.2 then (1 : ℝ) else 0) / N)
    ?_ ?_
  · intro N hN
    have hun : ∀ᵐ ω ∂P, Unit01 (U ω) := by
      have : ∀ᵐ ω ∂P, ∀ j i, 0 ≤ U ω i j ∧ U ω i j < 1 := ae_all_iff.2 fun j => ae_unit hU rfl
      filter_upwards [this] with ω hω i j using hω j i
    filter_upwards [hun, UniCat.sample_cells hU hnd hne ht (size := (N : ℤ)) (by omega) v0] with ω hω
    rintro ⟨g, hg, g1, g2, g3⟩
    rw [Int.toNat_natCast] at g2 g3
    obtain ⟨_, _, _, _, hrect, _, hin⟩ := UniCat.sample_ok hg
    have hcol : ∀ j < c.vars.length, column g.rows j =
        (List.range N).map (fun i => pickD v0 ((t j).map Prod.snd).sum 0 (t j) (U ω i j)) := by
      intro j hj
      have h1 : (column g.rows j).map some = g.rows.map (fun r => r[j]?) :=
        filterMap_get_some (i := j) (cols := g.rows) (fun r h => by rw [hrect r h]; exact hj)
      apply List.map_injective_iff.2 (Option.some_injective _)
      rw [h1]
      apply List.ext_getElem?
      intro i
      by_cases hi : i < N
      · obtain ⟨r, hr, _, hv⟩ := g3 i hi
        simp only [List.getElem?_map, hr, Option.map_some, hv j hj, List.getElem?_range hi]
      · rw [List.getElem?_eq_none (by simp; omega), List.getElem?_eq_none (by simp; omega)]
    obtain ⟨m, hm⟩ := (C27_learn_ok_iff (K := ℝ) (c := c) (data := g) hnd).2 ⟨g1.ge, by
      intro j hj
      obtain ⟨t', ht', _, hv⟩ := hin j _ (List.getElem?_eq_getElem hj)
      obtain ⟨k1, k2, _⟩ := ht j _ (List.getElem?_eq_getElem hj)
      rw [k1] at ht'
      obtain rfl := Option.some.inj ht'
      have hmem : ∀ v ∈ column g.rows j, v ∈ (t j).map Prod.fst := by
        intro v hv'
        obtain ⟨r, hr, hrv⟩ := List.mem_filterMap.1 hv'
        obtain ⟨q, hq, _⟩ := hv hω r hr v hrv
        exact List.mem_map.2 ⟨_, hq, rfl⟩
      rcases k2 with k2 | k2
      · exact .inl fun v h => k2 v (hmem v h)
      · exact .inr fun v h => k2 v (hmem v h)⟩
    refine ⟨g, m, hg, hm, ?_⟩
    rintro ⟨l, v⟩
    obtain ⟨_, hemp⟩ := C27_learn_empirical hnd (by rw [g1]; exact hrect) hm
    obtain ⟨t', ht', e1, e2, _⟩ := hemp _ _ (hidx l)
    have hj : idx l < c.vars.length := (List.getElem?_eq_some_iff.1 (hidx l)).1
    simp only [ht', Option.getD_some]
    rw [probOf_empirical e1 (by
      intro h0
      rw [h0] at e2
      simp at e2
      omega), hcol _ hj, count_range]
    simp
  · have hall : ∀ᵐ ω ∂P, ∀ j : Fin c.vars.length, ∀ v ∈ (t j).map Prod.fst,
        Tendsto (fun N : ℕ => (∑ i ∈ Finset.range N, if pickD v0 ((t j).map Prod.snd).sum 0 (t j) (U ω i j) = v
          then (1 : ℝ) else 0) / N) atTop (𝓝 (probOf (t j) v)) := by
      refine ae_all_iff.2 fun j => ?_
      obtain ⟨_, _, h1, h2⟩ := ht j _ (List.getElem?_eq_getElem j.2)
      have : ∀ v ∈ ((t j).map Prod.fst).toFinset, ∀ᵐ ω ∂P, Tendsto (fun N : ℕ => (∑ i ∈ Finset.range N,
          if pickD v0 ((t j).map Prod.snd).sum 0 (t j) (U ω i j) = v then (1 : ℝ) else 0) / N) atTop
          (𝓝 (probOf (t j) v)) := by
        intro v _
        obtain ⟨k1, k2, k3⟩ := integral_pickD v0 (t j) (fun vq h => h1 _ (List.mem_map.2 ⟨vq, h, rfl⟩)) h2 v
        have := slln_cell hU j k1 k2
        rwa [k3] at this
      filter_upwards [(Finset.eventually_all _).2 this] with ω hω v hv
      exact hω v (List.mem_toFinset.2 hv)
    have hun : ∀ᵐ ω ∂P, Unit01 (U ω) := by
      have : ∀ᵐ ω ∂P, ∀ j i, 0 ≤ U ω i j ∧ U ω i j < 1 := ae_all_iff.2 fun j => ae_unit hU rfl
      filter_upwards [this] with ω hω i j using hω j i
    filter_upwards [hall, hun] with ω hω hu
    rintro ⟨l, v⟩
    have hj : idx l < c.vars.length := (List.getElem?_eq_some_iff.1 (hidx l)).1
    obtain ⟨k0, _, k1, k2⟩ := ht _ _ (hidx l)
    simp only [k0, Option.getD_some]
    by_cases hv : v ∈ (t (idx l)).map Prod.fst
    · exact hω ⟨idx l, hj⟩ v hv
    · have hp0 : probOf (t (idx l)) v = 0 := by
        unfold probOf
        rw [List.filter_eq_nil_iff.2]
        · rfl
        intro y hy
        simp only [decide_eq_true_eq]
        intro he
        exact hv (he ▸ List.mem_map.2 ⟨y, hy, rfl⟩)
      rw [hp0]
      have : ∀ i, pickD v0 ((t (idx l)).map Prod.snd).sum 0 (t (idx l)) (U ω i (idx l)) ≠ v := by
        intro i he
        obtain ⟨_, w, q, hw, hwi, _, _⟩ := pickVal_ok (vals := (t (idx l)).map Prod.fst)
          (p := (t (idx l)).map Prod.snd) (by simp) (by rw [k2]; norm_num) (hu i (idx l))
        unfold pickVal at hw
        unfold pickD at he
        split at hw
        · rename_i w' hw'
          rw [hw'] at he
          exact hv (he ▸ List.mem_of_getElem? hw')
        · cases hw
      simp [this]

end

namespace Ex

/-- Standard normal draws, and uniform draws. -/
noncomputable def normals : Measure (ℕ → ℕ → ℝ) :=
  Measure.infinitePi fun _ => Measure.infinitePi fun _ => gaussianReal 0 1

noncomputable def uniforms : Measure (ℕ → ℕ → ℝ) :=
  Measure.infinitePi fun _ => Measure.infinitePi fun _ => unif01

/-- Two independent variables with the variances 4 and 9. -/
noncomputable def indepVars : MultiGauss ℝ := ⟨2, -1, 1, [0, 0], [[4, 0], [0, 9]]⟩

/-- One variable with two values. -/
noncomputable def oneCat : UniCat String ℕ ℝ := ⟨["c"], fun _ => some [(.str 5, 1/3), (.str 7, 2/3)]⟩

end Ex

/-- **C95** is false for `MultiGauss`: the model of two independent variables with the variances 4 and 9 is not
recovered. -/
theorem C95_refuted : ∃ fac : List (List ℝ) → List (List ℝ),
    IsSvdRoot 2 (entry Ex.indepVars.cov) (entry (fac Ex.indepVars.cov)) ∧
    ¬ LearnsTo Ex.normals (fun N ω => Ex.indepVars.sample fac N ω) (fun g => Ex.indepVars.learn Real.sqrt g)
      (fun m => Sum.elim (fun j : Fin 2 => m.means.getD j 0) (fun ij : Fin 2 × Fin 2 => entry m.cov ij.1 ij.2))
      (Sum.elim (fun j => Ex.indepVars.means.getD j 0) (fun ij => entry Ex.indepVars.cov ij.1 ij.2)) := by
  have hsvd : IsSvdRoot 2 (entry Ex.indepVars.cov) (entry [[2, 0], [0, 3]]) := by
    refine ⟨1, 1, ![4, 9], by simp, by simp, by simp, ?_, ?_, ?_⟩
    · intro i
      have : i = 0 ∨ i = 1 := by omega
      rcases this with rfl | rfl <;> simp
    · ext i j
      have hi : i = 0 ∨ i = 1 := by omega
      have hj : j = 0 ∨ j = 1 := by omega
      rcases hi with rfl | rfl <;> rcases hj with rfl | rfl <;> simp [toMat, entry, Ex.indepVars]
    · ext i j
      have h4 : Real.sqrt 4 = 2 := by
        rw [show (4 : ℝ) = 2 * 2 by norm_num]; exact Real.sqrt_mul_self (by norm_num)
      have h9 : Real.sqrt 9 = 3 := by
        rw [show (9 : ℝ) = 3 * 3 by norm_num]; exact Real.sqrt_mul_self (by norm_num)
      have hi : i = 0 ∨ i = 1 := by omega
      have hj : j = 0 ∨ j = 1 := by omega
      rcases hi with rfl | rfl <;> rcases hj with rfl | rfl <;> simp [toMat, entry, h4, h9]
  refine ⟨fun _ => [[2, 0], [0, 3]], hsvd, fun h => ?_⟩
  have := (C95_multi_gauss_iff (b := Ex.indepVars) (fac := fun _ => [[2, 0], [0, 3]])
    (indepDraws_exist (fun _ => gaussianReal 0 1)) le_rfl rfl rfl (by
      intro r hr
      simp [Ex.indepVars] at hr ⊢
      rcases hr with rfl | rfl <;> rfl) hsvd (by
      intro i hi j hj
      simp only [Ex.indepVars] at hi hj
      have hi : i = 0 ∨ i = 1 := by omega
      have hj : j = 0 ∨ j = 1 := by omega
      rcases hi with rfl | rfl <;> rcases hj with rfl | rfl <;> simp [entry, Ex.indepVars]) (by
      intro x
      simp only [Ex.indepVars, Finset.sum_range_succ, Finset.sum_range_zero]
      simp [entry]
      nlinarith [mul_self_nonneg (x 0), mul_self_nonneg (x 1)]) (by norm_num [Ex.indepVars])).1 h
  have h0 := this.1 0 (by norm_num [Ex.indepVars])
  norm_num [Ex.indepVars, entry] at h0

/-- Two binary variables. -/
example : LearnsTo Ex.uniforms (fun N ω => (⟨2, 1/5, 4/5, [1/3, 1/2]⟩ : UniBin ℝ).sample N ω)
    (fun g => (⟨2, 1/5, 4/5, [1/3, 1/2]⟩ : UniBin ℝ).learn id g.rows) (fun m (j : Fin 2) => m.p.getD j 0)
    (fun j => [1/3, 1/2].getD j 0) :=
  C95_uni_bin (b := ⟨2, 1/5, 4/5, [1/3, 1/2]⟩) (indepDraws_exist (fun _ => unif01)) rfl (by norm_num) (by
    intro x hx; simp at hx; rcases hx with rfl | rfl <;> norm_num)

/-- Two continuous variables, the second deviation at its floor. -/
example : LearnsTo Ex.normals (fun N ω => (⟨2, 1/2, [5, 7], [2, 1/2]⟩ : UniGauss ℝ).sample N ω)
    (fun g => (⟨2, 1/2, [5, 7], [2, 1/2]⟩ : UniGauss ℝ).learn Real.sqrt g)
    (fun m => Sum.elim (fun j : Fin 2 => m.mean.getD j 0) (fun j : Fin 2 => m.std.getD j 0))
    (Sum.elim (fun j => [5, 7].getD j 0) (fun j => [2, 1/2].getD j 0)) :=
  C95_uni_gauss (b := ⟨2, 1/2, [5, 7], [2, 1/2]⟩) (indepDraws_exist (fun _ => gaussianReal 0 1)) rfl rfl (by
    intro x hx; simp at hx; rcases hx with rfl | rfl <;> norm_num)

/-- One categorical variable with two values. -/
example : LearnsTo Ex.uniforms (fun N ω => Ex.oneCat.sample N ω)
    (fun g => Ex.oneCat.learn g)
    (fun m (lv : {l // l ∈ Ex.oneCat.vars} × Cat ℕ) => probOf ((m.table lv.1).getD []) lv.2)
    (fun lv => probOf ((Ex.oneCat.table lv.1).getD []) lv.2) :=
  C95_uni_cat (c := Ex.oneCat) (indepDraws_exist (fun _ => unif01)) (by simp [Ex.oneCat]) (by simp [Ex.oneCat])
    (t := fun _ => [(.str 5, 1/3), (.str 7, 2/3)]) (by
      intro j l hj
      cases j with
      | succ j => simp [Ex.oneCat] at hj
      | zero =>
        simp [Ex.oneCat] at hj
        subst hj
        refine ⟨rfl, .inl (by simp [Cat.isStr]), ?_, by norm_num⟩
        intro x hx
        simp at hx
        rcases hx with rfl | rfl <;> norm_num)

end Verif
