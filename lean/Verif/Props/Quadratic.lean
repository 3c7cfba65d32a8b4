/-
C109: what a generation is expected to cost on a sum of squares.
-/
import Verif.Props.Forget
import Verif.Props.NeutralGauss

set_option linter.unusedSectionVars false

namespace Verif

open PyCost Spec MeasureTheory ProbabilityTheory

namespace Spec

/-- A weighted sum of the squared distances to the point `o`. -/
def squaresCost (n : ℕ) (a o : ℕ → ℝ) (r : List ℝ) : ℝ := ∑ j ∈ Finset.range n, a j * (r.getD j 0 - o j) ^ 2

end Spec

section mean
variable {n : ℕ} {a o : ℕ → ℝ}

theorem mean_square {l : List ℝ} (h : l ≠ []) (x : ℝ) :
    Spec.mean (l.map fun y => (y - x) ^ 2) = (Spec.mean l - x) ^ 2 + Spec.variance l := by
  have h1 := variance_affine h 1 (-x)
  have h2 := mean_affine h 1 (-x)
  have h3 := variance_moments (l := l.map fun y => 1 * y + -x) (by simpa using h)
  rw [h1, h2, List.map_map, List.length_map] at h3
  have e : ((fun y : ℝ => y ^ 2) ∘ fun y => 1 * y + -x) = fun y => (y - x) ^ 2 := by
    funext y; simp only [Function.comp]; ring
  rw [e] at h3
  have e' : Spec.mean (l.map fun y => (y - x) ^ 2) = (l.map fun y => (y - x) ^ 2).sum / (l.length : ℝ) := by
    unfold Spec.mean; rw [List.length_map]
  rw [e']
  linarith

/-- The mean cost of some individuals: the cost of their mean and their variances. -/
theorem mean_squares {rows : List (List ℝ)} (hne : rows ≠ []) : Spec.mean (rows.map (squaresCost n a o)) =
    ∑ j ∈ Finset.range n, a j * ((Spec.mean (col rows j) - o j) ^ 2 + Spec.variance (col rows j)) := by
  have hc : ∀ j < n, col (rows.map fun r => (List.range n).map fun j => (r.getD j 0 - o j) ^ 2) j =
      (col rows j).map fun y => (y - o j) ^ 2 := by
    intro j hj
    unfold col
    rw [List.map_map, List.map_map]
    refine List.map_congr_left fun r _ => ?_
    simp only [Function.comp]
    rw [List.getD_eq_getElem?_getD, List.getElem?_map, List.getElem?_range hj, Option.map_some, Option.getD_some]
  have h1 := mean_linear (n := n) (a := 0) (w := a)
    (rows := rows.map fun r => (List.range n).map fun j => (r.getD j 0 - o j) ^ 2) (by simpa using hne)
  rw [List.map_map, zero_add, Fin.sum_univ_eq_sum_range (fun j => a j * Spec.mean (col (rows.map fun r =>
    (List.range n).map fun j => (r.getD j 0 - o j) ^ 2) j))] at h1
  have h2 : (linearCost n 0 a ∘ fun r : List ℝ => (List.range n).map fun j => (r.getD j 0 - o j) ^ 2) =
      squaresCost n a o := by
    funext r
    simp only [Function.comp, linearCost, squaresCost]
    rw [zero_add, Fin.sum_univ_eq_sum_range (fun j => a j * ((List.range n).map fun j => (r.getD j 0 - o j) ^ 2).getD j 0)]
    refine Finset.sum_congr rfl fun j hj => ?_
    rw [List.getD_eq_getElem?_getD, List.getElem?_map, List.getElem?_range (Finset.mem_range.1 hj), Option.map_some,
      Option.getD_some]
  rw [h2] at h1
  rw [h1]
  refine Finset.sum_congr rfl fun j hj => ?_
  rw [hc j (Finset.mem_range.1 hj), mean_square (by unfold col; simpa using hne)]

/-- The second moment of a number computed from independent normal draws. -/
theorem normal_second (μ : ℝ) (c : ℕ → ℝ) (i : ℕ) :
    Integrable (fun z : Draws ℝ => (μ + ∑ k ∈ Finset.range n, z i k * c k) ^ 2) Spec.normalDraws ∧
    ∫ z : Draws ℝ, (μ + ∑ k ∈ Finset.range n, z i k * c k) ^ 2 ∂Spec.normalDraws = μ ^ 2 + ∑ k ∈ Finset.range n, c k ^ 2 := by
  obtain ⟨h2, hmean, hv⟩ := normal_moments (n := n) μ c
  set ν : Measure (ℕ → ℝ) := Measure.infinitePi (fun _ : ℕ => gaussianReal 0 1) with hν
  have hi : MeasurePreserving (fun z : Draws ℝ => z i) Spec.normalDraws ν :=
    measurePreserving_eval_infinitePi (fun _ : ℕ => ν) i
  have hmeas : Measurable fun z : ℕ → ℝ => (μ + ∑ k ∈ Finset.range n, z k * c k) ^ 2 := by fun_prop
  have hsq : ∫ z : ℕ → ℝ, (μ + ∑ k ∈ Finset.range n, z k * c k) ^ 2 ∂ν = μ ^ 2 + ∑ k ∈ Finset.range n, c k ^ 2 := by
    have := variance_eq_sub h2
    rw [hv, hmean] at this
    have e : ∫ z : ℕ → ℝ, ((fun z : ℕ → ℝ => μ + ∑ k ∈ Finset.range n, z k * c k) ^ 2) z ∂ν =
      ∫ z : ℕ → ℝ, (μ + ∑ k ∈ Finset.range n, z k * c k) ^ 2 ∂ν := rfl
    rw [e] at this
    linarith
  constructor
  · exact hi.integrable_comp_of_integrable (g := fun z : ℕ → ℝ => (μ + ∑ k ∈ Finset.range n, z k * c k) ^ 2) h2.integrable_sq
  · rw [← hsq, ← hi.map_eq, integral_map hi.measurable.aemeasurable hmeas.aestronglyMeasurable]

theorem cost_row (μ y : ℕ → ℝ) : squaresCost n a o ((List.range n).map fun j => μ j + y j) =
    ∑ j ∈ Finset.range n, a j * (μ j - o j + y j) ^ 2 := by
  unfold squaresCost
  refine Finset.sum_congr rfl fun j hj => ?_
  rw [List.getD_eq_getElem?_getD, List.getElem?_map, List.getElem?_range (Finset.mem_range.1 hj), Option.map_some,
    Option.getD_some]
  ring

/-- The expected mean cost of individuals computed from independent normal draws. -/
theorem normal_squares {size : ℕ} (hs : 1 ≤ size) (μ : ℕ → ℝ) (c : ℕ → ℕ → ℝ)
    {draw : Draws ℝ → Except PyErr (Gen (List ℝ))}
    (hd : ∀ z, ∃ g, draw z = .ok g ∧ g.rows = (List.range size).map fun i => (List.range n).map fun j =>
      μ j + ∑ k ∈ Finset.range n, z i k * c k j) :
    ExpectedCost Spec.normalDraws draw (squaresCost n a o) size
      (∑ j ∈ Finset.range n, a j * ((μ j - o j) ^ 2 + ∑ k ∈ Finset.range n, c k j ^ 2)) := by
  have hsec := fun i j => normal_second (n := n) (μ j - o j) (fun k => c k j) i
  have hint : ∀ i, Integrable (fun z : Draws ℝ => ∑ j ∈ Finset.range n,
      a j * (μ j - o j + ∑ k ∈ Finset.range n, z i k * c k j) ^ 2) Spec.normalDraws := fun i =>
    integrable_finsetSum _ fun j _ => (hsec i j).1.const_mul _
  refine ⟨fun z => (∑ i ∈ Finset.range size, ∑ j ∈ Finset.range n,
    a j * (μ j - o j + ∑ k ∈ Finset.range n, z i k * c k j) ^ 2) / size, Filter.Eventually.of_forall fun z => ?_, ?_, ?_⟩
  · obtain ⟨g, h1, h2⟩ := hd z
    refine ⟨g, h1, by rw [h2]; simp, ?_⟩
    have hcost : g.rows.map (squaresCost n a o) = (List.range size).map fun i => ∑ j ∈ Finset.range n,
        a j * (μ j - o j + ∑ k ∈ Finset.range n, z i k * c k j) ^ 2 := by
      rw [h2, List.map_map]
      refine List.map_congr_left fun i _ => ?_
      exact cost_row μ fun j => ∑ k ∈ Finset.range n, z i k * c k j
    rw [hcost]
    unfold Spec.mean
    rw [List.length_map, List.length_range, sum_map_listRange]
  · exact (integrable_finsetSum _ fun i _ => hint i).div_const _
  · rw [integral_div, integral_finsetSum _ fun i _ => hint i]
    have : ∀ i, ∫ z : Draws ℝ, ∑ j ∈ Finset.range n, a j * (μ j - o j + ∑ k ∈ Finset.range n, z i k * c k j) ^ 2
        ∂Spec.normalDraws = ∑ j ∈ Finset.range n, a j * ((μ j - o j) ^ 2 + ∑ k ∈ Finset.range n, c k j ^ 2) := by
      intro i
      rw [integral_finsetSum _ fun j _ => (hsec i j).1.const_mul _]
      exact Finset.sum_congr rfl fun j _ => by rw [integral_const_mul, (hsec i j).2]
    simp only [this, Finset.sum_const, Finset.card_range, nsmul_eq_mul]
    have : (size : ℝ) ≠ 0 := by exact_mod_cast (by omega : size ≠ 0)
    field_simp

end mean

section umdac
variable {fl : ℝ → ℝ} {cfg : UMDAcCfg ℝ} {env : Env ℝ} {ftol : ℝ} {ρ : Rand (Draws ℝ)} {a o : ℕ → ℝ}
variable {e : Eda (List ℝ) (UniGauss ℝ) (Draws ℝ)} {b : UniGauss ℝ}

/-- **C109** `UMDAc` without white noise on a sum of squares: given everything drawn before, the expected mean cost of the
last generation is at most the mean of the `truncation_length` lowest costs of the generation before, plus what the
minimal deviation costs. -/
theorem C109_UMDAc (hv : env.Valid) (h : UMDAc fl Real.sqrt cfg = .ok (e, b)) (hn : 1 ≤ cfg.base.nVars)
    (hsize : 1 ≤ cfg.base.sizeGen) (hcpu : cfg.base.parallel = true → (env.cpu : ℤ) ≤ cfg.base.sizeGen)
    (htr : 1 ≤ selLen fl cfg.base.sizeGen cfg.base.alpha) (hnz : cfg.base.noiseAttr = 0)
    (ha : ∀ j < cfg.base.nVars, 0 ≤ a j) {res : EdaResult (List ℝ) ℝ} {s : St (List ℝ) ℝ (UniGauss ℝ)}
    (hrun : minimize env e (fun _ => squaresCost cfg.base.nVars a o) ftol b ρ = .ok (res, s)) {T : ℕ}
    (hmax : cfg.base.maxIter = T + 2) (hlen : res.history.length = T + 2) :
    ∃ m, ExpectedLast Spec.normalDraws (fun z => minimize env e (fun _ => squaresCost cfg.base.nVars a o) ftol b
        (replaceDraws ρ (T + 1) z)) s m ∧
      ∀ batch, s.log[T]? = some batch → selLen fl cfg.base.sizeGen cfg.base.alpha ≤ batch.length →
        m ≤ bestMean (selLen fl cfg.base.sizeGen cfg.base.alpha).toNat (batch.map Prod.snd) +
          ∑ j ∈ Finset.range cfg.base.nVars, a j * cfg.lowerFactor ^ 2 := by
  obtain ⟨hmk, _, hb⟩ := mkCont_ok h
  have hm := mkEda_ok hmk
  have hfl := floors_learn real_isSqrt (show 0 < cfg.base.nVars by omega) cfg.lowerFactor
  have hP : IsProbabilityMeasure Spec.normalDraws := by unfold Spec.normalDraws; infer_instance
  have hmain := expected_progress (P := Spec.normalDraws) (U := fun z => z) (size := cfg.base.sizeGen.toNat)
    (δ := ∑ j ∈ Finset.range cfg.base.nVars, a j * cfg.lowerFactor ^ 2) hv hrun
    (by rw [hm.maxIter]; exact hmax) hlen
    (fun noise g g' h1 h2 => mkNoise_clean hm hnz h1 h2) (by omega)
    (fun hp => by rw [hm.parallel] at hp; have := hcpu hp; omega) (by rw [hm.truncLen]; exact htr) ?_
  · simpa only [hm.truncLen] using hmain
  intro s1 s1' noisy pm' hvis htrunc hsame hne hsort hu hsm
  have hpm : s1.pm.n = cfg.base.nVars ∧ s1.pm.lb = cfg.lowerFactor := by
    refine visited_inv (fun s => s.pm.n = cfg.base.nVars ∧ s.pm.lb = cfg.lowerFactor) ?_ ?_ hvis
    · intro s0 h0
      obtain ⟨_, _, _, _, _, hs⟩ := start_ok h0
      rw [hs.pm, hb]; exact ⟨rfl, rfl⟩
    · intro noise t s s' b' hi _ hst
      obtain ⟨s1, noisy, _, _, _, _, hs⟩ := step_ok hst
      have hu := hs.update
      rw [hm.updatePm] at hu
      have hg := (hfl _ _ s1.elite (ρ.learn t) _ hi.1 hi.2 hu).1
      exact ⟨hg.n, hg.lb⟩
  rw [hm.updatePm] at hu
  have hgood := (hfl _ _ s1'.elite (ρ.learn (T + 1)) _ hpm.1 hpm.2 hu).1
  have hdev := deviates_learn (by omega) cfg.lowerFactor _ _ s1'.elite (ρ.learn (T + 1)) _ hpm.1 hpm.2 hu
  have hmean : ∀ j < cfg.base.nVars, pm'.mean.getD j 0 = Spec.mean (col noisy.rows j) := by
    intro j hj
    have hu : s1.pm.learn Real.sqrt noisy = .ok pm' := hu
    have hc : s1.pm.n ≤ noisy.cols := by
      by_contra hlt
      unfold UniGauss.learn at hu
      rw [if_neg (by omega), if_pos (by omega)] at hu
      cases hu
    obtain ⟨b'', h1, _, _, _, _, h6⟩ := C24_learn real_isSqrt (fun h => absurd h (by omega)) hc hne
    obtain rfl := Except.ok.inj (h1.symm.trans hu)
    rw [List.getD_eq_getElem?_getD, (h6 j (by omega)).1]
    rfl
  refine ⟨_, normal_squares (n := cfg.base.nVars) (size := cfg.base.sizeGen.toNat) (by omega) (fun j => pm'.mean.getD j 0)
    (fun k j => if k = j then pm'.std.getD j 0 else 0) (fun z => ?_), ?_⟩
  · refine ⟨_, by rw [hm.sample]; exact UniGauss.sample_eq hgood (by omega) z, ?_⟩
    simp only
    refine List.map_congr_left fun i _ => List.map_congr_left fun j hj => ?_
    have hj : j ∈ Finset.range cfg.base.nVars := Finset.mem_range.2 (List.mem_range.1 hj)
    simp only [mul_ite, mul_zero]
    rw [Finset.sum_ite_eq' _ j, if_pos hj]
    ring
  · rw [mean_squares hne, ← Finset.sum_add_distrib]
    refine Finset.sum_le_sum fun j hj => ?_
    have hjn := Finset.mem_range.1 hj
    have e : ∑ k ∈ Finset.range cfg.base.nVars, (if k = j then pm'.std.getD j 0 else 0) ^ 2 = pm'.std.getD j 0 ^ 2 := by
      simp only [ite_pow, ne_eq, OfNat.ofNat_ne_zero, not_false_eq_true, zero_pow]
      rw [Finset.sum_ite_eq' _ j, if_pos hj]
    rw [e, hmean j hjn, hdev j hjn, ← mul_add]
    refine mul_le_mul_of_nonneg_left ?_ (ha j hjn)
    have hv0 := Verif.variance_nonneg (col noisy.rows j)
    have hsq := Real.sq_sqrt hv0
    rcases le_total (Real.sqrt (Spec.variance (col noisy.rows j))) cfg.lowerFactor with h1 | h1
    · rw [max_eq_right h1]; linarith
    · rw [max_eq_left h1, hsq]; nlinarith [sq_nonneg cfg.lowerFactor]

end umdac

section emna
variable {fl : ℝ → ℝ} {fac : List (List ℝ) → List (List ℝ)} {cfg : EMNACfg ℝ} {env : Env ℝ} {ftol : ℝ}
variable {ρ : Rand (Draws ℝ)} {a o : ℕ → ℝ} {e : Eda (List ℝ) (MultiGauss ℝ) (Draws ℝ)} {b : MultiGauss ℝ}

/-- What `MultiGauss` samples on a sum of squares. -/
theorem multi_squares {b b' : MultiGauss ℝ} {g : Gen (List ℝ)} (h : b.learn Real.sqrt g = .ok b') (hc : g.cols = b.n)
    (hfac : Decomposes b.n fac) (ha : ∀ j < b.n, 0 ≤ a j) {size : ℤ} (hs : 1 ≤ size) :
    ∃ m, ExpectedCost Spec.normalDraws (fun z => b'.sample fac size z) (squaresCost b.n a o) size.toNat m ∧
      Spec.mean (g.rows.map (squaresCost b.n a o)) + ∑ j ∈ Finset.range b.n, a j *
        (Real.sqrt (Spec.variance (col g.rows j)) - Spec.variance (col g.rows j)) ≤ m ∧
      (PSD b.n (entry b'.cov) → m = Spec.mean (g.rows.map (squaresCost b.n a o)) + ∑ j ∈ Finset.range b.n, a j *
        (Real.sqrt (Spec.variance (col g.rows j)) - Spec.variance (col g.rows j))) := by
  have hne : g.rows ≠ [] := by
    intro h0
    unfold MultiGauss.learn at h
    split at h
    · cases h
    split at h
    · cases h
    split at h
    · cases h
    rename_i h3
    rw [h0] at h3
    simp at h3
  have hb' : b' = { b with
      means := (List.range b.n).map (colMean g.rows)
      cov := (List.range b.n).map (fun i => (List.range b.n).map (fun j =>
        if i = j then colStd Real.sqrt g.rows i else clampEntry b.lb b.ub (covEntry g.rows i j))) } := by
    unfold MultiGauss.learn at h
    split at h
    · cases h
    split at h
    · cases h
    split at h
    · cases h
    rw [← Except.ok.inj h, hc]
  have hgood : b'.Good b.n := by
    rw [hb']
    refine ⟨rfl, by simp, by simp, ?_⟩
    intro r hr
    simp only [List.mem_map] at hr
    obtain ⟨i, _, rfl⟩ := hr
    simp
  have hsym : ∀ i < b.n, ∀ j < b.n, entry b'.cov i j = entry b'.cov j i := by
    intro i hi j hj
    rw [hb']
    simp only
    rw [entry_map hi hj, entry_map hj hi, covEntry_eq, covEntry_eq, covariance_comm j i]
    by_cases hij : i = j
    · rw [hij]
    · rw [if_neg hij, if_neg (Ne.symm hij)]
  have hdiag : ∀ j < b.n, entry b'.cov j j = Real.sqrt (Spec.variance (col g.rows j)) := by
    intro j hj
    rw [hb']
    simp only
    rw [entry_map hj hj, if_pos rfl, colStd_eq]
  have hmean : ∀ j < b.n, b'.means.getD j 0 = Spec.mean (col g.rows j) := by
    intro j hj
    rw [hb']
    simp only
    rw [List.getD_eq_getElem?_getD, List.getElem?_map, List.getElem?_range hj, Option.map_some, Option.getD_some, colMean_eq]
  refine ⟨_, normal_squares (n := b.n) (size := size.toNat) (by omega) (fun j => b'.means.getD j 0)
    (fun k j => entry (fac b'.cov) k j) (fun z => ⟨_, MultiGauss.sample_eq hgood (by omega) z, ?_⟩), ?_, fun hpsd => ?_⟩
  · simp only [sum_map_listRange]
  · rw [mean_squares hne, ← Finset.sum_add_distrib]
    refine Finset.sum_le_sum fun j hj => ?_
    have hjn := Finset.mem_range.1 hj
    rw [hmean j hjn, ← mul_add]
    refine mul_le_mul_of_nonneg_left ?_ (ha j hjn)
    have := svdRoot_diag hsym (hfac _ hsym) ⟨j, hjn⟩
    simp only at this
    rw [hdiag j hjn] at this
    linarith
  · rw [mean_squares hne, ← Finset.sum_add_distrib]
    refine Finset.sum_congr rfl fun j hj => ?_
    have hjn := Finset.mem_range.1 hj
    have e : ∑ k ∈ Finset.range b.n, entry (fac b'.cov) k j ^ 2 = Real.sqrt (Spec.variance (col g.rows j)) := by
      rw [← hdiag j hjn, ← (svdRoot_gram_iff hsym (hfac _ hsym)).2 hpsd j hjn j hjn]
      exact Finset.sum_congr rfl fun k _ => by rw [pow_two]
    rw [hmean j hjn, e]
    ring

/-- **C109** `EMNA` without white noise on a sum of squares: given everything drawn before, the expected mean cost of the
last generation exceeds the mean cost of the individuals selected from the generation before by at least the differences
between the deviations and the variances of the variables; so it is greater if the variances are less than 1.  If the
learned matrix is positive semidefinite, the difference is exactly this. -/
theorem C109_EMNA (hv : env.Valid) (h : EMNA fl Real.sqrt fac cfg = .ok (e, b)) (hfac : Decomposes cfg.base.nVars fac)
    (hsize : 1 ≤ cfg.base.sizeGen) (hcpu : cfg.base.parallel = true → (env.cpu : ℤ) ≤ cfg.base.sizeGen)
    (hnz : cfg.base.noiseAttr = 0) (ha : ∀ j < cfg.base.nVars, 0 ≤ a j)
    {res : EdaResult (List ℝ) ℝ} {s : St (List ℝ) ℝ (MultiGauss ℝ)}
    (hrun : minimize env e (fun _ => squaresCost cfg.base.nVars a o) ftol b ρ = .ok (res, s))
    {T : ℕ} (hmax : cfg.base.maxIter = T + 2) (hlen : res.history.length = T + 2) :
    ∃ s1 s1' pm', Visited env e (fun _ => squaresCost cfg.base.nVars a o) ftol b ρ (T + 1) s1 ∧
      truncation env e s1 = .ok s1' ∧ s1.pm.learn Real.sqrt s1'.gen = .ok pm' ∧
      ∃ m, ExpectedLast Spec.normalDraws (fun z => minimize env e (fun _ => squaresCost cfg.base.nVars a o) ftol b
        (replaceDraws ρ (T + 1) z)) s m ∧
        Spec.mean (s1'.gen.rows.map (squaresCost cfg.base.nVars a o)) + ∑ j ∈ Finset.range cfg.base.nVars, a j *
          (Real.sqrt (Spec.variance (col s1'.gen.rows j)) - Spec.variance (col s1'.gen.rows j)) ≤ m ∧
        ((∀ j < cfg.base.nVars, Spec.variance (col s1'.gen.rows j) ≤ 1) →
          (∃ j < cfg.base.nVars, 0 < a j ∧ 0 < Spec.variance (col s1'.gen.rows j) ∧
            Spec.variance (col s1'.gen.rows j) < 1) →
          Spec.mean (s1'.gen.rows.map (squaresCost cfg.base.nVars a o)) < m) ∧
        (PSD cfg.base.nVars (entry pm'.cov) →
          m = Spec.mean (s1'.gen.rows.map (squaresCost cfg.base.nVars a o)) + ∑ j ∈ Finset.range cfg.base.nVars, a j *
            (Real.sqrt (Spec.variance (col s1'.gen.rows j)) - Spec.variance (col s1'.gen.rows j))) := by
  obtain ⟨he, _, hb⟩ := EMNA_ok h
  have hm := mkEda_ok he
  obtain ⟨s1, s1', noise, noisy, pm', hvis, hn, htr, hno, hu, hsm, hlog, hother⟩ :=
    last_pass hv hrun (by rw [hm.maxIter]; exact hmax) hlen (fun _ _ => field_isNum _)
  have hsame : noisy = s1'.gen := mkNoise_clean hm hnz hn hno
  rw [hm.updatePm, hsame] at hu
  have hu : s1.pm.learn Real.sqrt s1'.gen = .ok pm' := hu
  obtain ⟨k1, _, _⟩ := emna_key h hvis
  have hcols : s1'.gen.cols = s1.pm.n := by
    have hu' := hu
    unfold MultiGauss.learn at hu'
    split at hu'
    · simp at hu'
    split at hu'
    · simp at hu'
    split at hu'
    · simp at hu'
    have hu' := (Except.ok.inj hu').symm
    rw [hm.sample] at hsm
    have hsm : pm'.sample fac cfg.base.sizeGen (ρ.sample (T + 1)) = .ok s.gen := hsm
    unfold MultiGauss.sample at hsm
    split at hsm
    · simp at hsm
    split at hsm
    · simp at hsm
    split at hsm
    · simp at hsm
    rename_i h4
    have h4 := not_not.1 h4
    rw [hu'] at h4
    simpa using h4.symm
  obtain ⟨m, ⟨X, hX, hi, hE⟩, hle, heq⟩ := multi_squares (fac := fac) (a := a) (o := o) hu hcols (by rw [k1]; exact hfac)
    (by rw [k1]; exact ha) hsize
  rw [k1] at hX hle heq
  refine ⟨s1, s1', pm', hvis, htr, hu, m, ⟨X, ?_, hi, hE⟩, hle, fun h1 h2 => lt_of_lt_of_le ?_ hle, heq⟩
  · filter_upwards [hX] with z hz
    obtain ⟨out, ho, hol, hx⟩ := hz
    obtain ⟨res', s', r1, r2, r3, r4⟩ := hother z out (by rw [hm.sample]; exact ho)
      (by intro h0; rw [h0] at hol; simp at hol; omega)
      (by intro hp; rw [hm.parallel] at hp; have := hcpu hp; omega)
    refine ⟨res', s', r1, by rw [r3, hlog]; simp, by rw [r3, hlog, List.dropLast_concat, List.dropLast_concat],
      by rw [r3, r2]; simp, ?_⟩
    rw [hx, r4, callRows_const]
  · have hterm : ∀ j < cfg.base.nVars,
        0 ≤ Real.sqrt (Spec.variance (col s1'.gen.rows j)) - Spec.variance (col s1'.gen.rows j) := by
      intro j hj
      have h0 := Verif.variance_nonneg (col s1'.gen.rows j)
      have := Real.le_sqrt_of_sq_le (show Spec.variance (col s1'.gen.rows j) ^ 2 ≤ Spec.variance (col s1'.gen.rows j) by
        nlinarith [h1 j hj])
      linarith
    obtain ⟨j, hj, haj, hv0, hv1⟩ := h2
    have hpos : 0 < ∑ j ∈ Finset.range cfg.base.nVars, a j *
        (Real.sqrt (Spec.variance (col s1'.gen.rows j)) - Spec.variance (col s1'.gen.rows j)) := by
      refine Finset.sum_pos' (fun j hj => mul_nonneg (ha j (Finset.mem_range.1 hj)) (hterm j (Finset.mem_range.1 hj)))
        ⟨j, Finset.mem_range.2 hj, mul_pos haj ?_⟩
      have := Real.lt_sqrt_of_sq_lt (show Spec.variance (col s1'.gen.rows j) ^ 2 < Spec.variance (col s1'.gen.rows j) by
        nlinarith)
      linarith
    linarith

end emna

/-- C109, `UMDAc` with two variables, 4 individuals of which 2 are selected, 12 generations and the cost
`x² + 3 (y - 5)²`: whatever is drawn before, the expected mean cost of the last generation is at most the mean of the two
lowest costs of the generation before. -/
example (ρ : Rand (Draws ℝ)) : ∃ e b res s, UMDAc id Real.sqrt Ex.fade = .ok (e, b) ∧
    minimize realEnv e (fun _ => squaresCost 2 (fun j => if j = 0 then 1 else 3) (fun j => if j = 0 then 0 else 5)) 0 b ρ =
      .ok (res, s) ∧
    ∃ m, ExpectedLast Spec.normalDraws (fun z => minimize realEnv e
        (fun _ => squaresCost 2 (fun j => if j = 0 then 1 else 3) (fun j => if j = 0 then 0 else 5)) 0 b
        (replaceDraws ρ 11 z)) s m ∧
      ∃ batch, s.log[10]? = some batch ∧ (batch.map Prod.snd).length = 4 ∧
        m ≤ bestMean 2 (batch.map Prod.snd) := by
  obtain ⟨e, b, heb, res, s, hrun⟩ := C53_UMDAc_never_raises (ftol := 0) (ρ := ρ)
    (f := fun _ => squaresCost 2 (fun j => if j = 0 then 1 else 3) (fun j => if j = 0 then 0 else 5))
    realEnv_valid real_isSqrt Ex.fade_valid (fun _ _ => field_isNum _)
  refine ⟨e, b, res, s, heb, hrun, ?_⟩
  have hmk := mkEda_ok (mkCont_ok heb).1
  have hlen : res.history.length = 12 := by
    have := (C06_dead_iter hrun).2.2 (by rw [hmk.deadIter]; rfl)
    rw [hmk.maxIter] at this
    have h3 : (res.history.length : ℤ) = 12 := by simpa [Ex.fade] using this
    exact_mod_cast h3
  have hsel : selLen id Ex.fade.base.sizeGen Ex.fade.base.alpha = 2 := Ex.selLen_half
  obtain ⟨m, hm, hbm⟩ := C109_UMDAc (T := 10) realEnv_valid heb (by simp [Ex.fade]) (by simp [Ex.fade])
    (by simp [Ex.fade]) (by rw [hsel]; norm_num) (by simp [Ex.fade, BaseCfg.noiseAttr])
    (by intro j _; split <;> norm_num) hrun (by rfl) hlen
  refine ⟨m, hm, ?_⟩
  obtain ⟨_, s2, _, _, _, _, hst, hlog⟩ := minimize_pass (t := 10) realEnv_valid hrun (by omega) (by omega)
  obtain ⟨_, _, _, _, _, _, hs⟩ := step_ok hst
  have hsm := hs.sample
  rw [hmk.sample] at hsm
  have h4 : (s2.gen.rows.length : ℤ) = 4 := (UniGauss.sample_shape hsm).2.2.2
  cases hb : s.log[10]? with
  | none => rw [hb] at hlog; cases hlog
  | some batch =>
    rw [hb, Option.map_some, Option.some.injEq] at hlog
    have hbl : batch.length = 4 := by
      have := congrArg List.length hlog
      rw [List.length_map] at this
      omega
    refine ⟨batch, rfl, by rw [List.length_map]; exact hbl, ?_⟩
    have := hbm batch hb (by rw [hsel]; omega)
    rw [hsel] at this
    simpa [Ex.fade] using this

/-- C109, `EMNA` with the default `lower_factor` and the cost `x²`: the mean cost of the four individuals selected is
1/5000, the expected mean cost of the next generation at least 101/10000, fifty times as much. -/
example : ∃ fac : List (List ℝ) → List (List ℝ), Decomposes 2 fac ∧ ∃ e b, EMNA id Real.sqrt fac Ex.slim = .ok (e, b) ∧
    ∀ ρ : Rand (Draws ℝ), ∃ res s s1 s1',
      minimize realEnv e (fun _ => squaresCost 2 (fun j => if j = 0 then 1 else 0) 0) 0 b ρ = .ok (res, s) ∧
      Visited realEnv e (fun _ => squaresCost 2 (fun j => if j = 0 then 1 else 0) 0) 0 b ρ 1 s1 ∧
      truncation realEnv e s1 = .ok s1' ∧
      Spec.mean (s1'.gen.rows.map (squaresCost 2 (fun j => if j = 0 then 1 else 0) 0)) = 1 / 5000 ∧
      ∃ m, ExpectedLast Spec.normalDraws (fun z => minimize realEnv e
        (fun _ => squaresCost 2 (fun j => if j = 0 then 1 else 0) 0) 0 b (replaceDraws ρ 1 z)) s m ∧ 101 / 10000 ≤ m := by
  obtain ⟨fac, hfac⟩ : ∃ fac, Decomposes 2 fac := svdRoots_symmetric 2
  have hrun : ∀ ρ : Rand (Draws ℝ), ∃ e b, EMNA id Real.sqrt fac Ex.slim = .ok (e, b) ∧ ∃ res s,
      minimize realEnv e (fun _ => squaresCost 2 (fun j => if j = 0 then 1 else 0) 0) 0 b ρ = .ok (res, s) :=
    fun ρ => C53_EMNA_never_raises realEnv_valid Ex.slim_valid (by norm_num [Ex.slim]) (by norm_num)
      (by norm_num [Ex.slim, selLen, pyInt, Num.truncZ]) (fun _ _ => field_isNum _)
  obtain ⟨e, b, h, _⟩ := hrun ⟨fun _ _ => 0, fun _ _ => 0, fun _ _ _ => 0, fun _ _ _ => 0⟩
  refine ⟨fac, hfac, e, b, h, fun ρ => ?_⟩
  obtain ⟨e', b', h', res, s, hr⟩ := hrun ρ
  rw [h] at h'
  obtain ⟨rfl, rfl⟩ := Prod.mk.inj (Except.ok.inj h')
  have hm := mkEda_ok (EMNA_ok h).1
  have hlen : res.history.length = 2 := by
    have := (C06_dead_iter hr).2.2 (by rw [hm.deadIter]; rfl)
    rw [hm.maxIter] at this
    have h3 : (res.history.length : ℤ) = 2 := by simpa [Ex.slim] using this
    exact_mod_cast h3
  obtain ⟨s1, s1', _, hvis, htr, _, m, hE, hle, _⟩ := C109_EMNA (a := fun j => if j = 0 then 1 else 0) (o := 0) realEnv_valid h hfac
    (by norm_num [Ex.slim]) (by intro hp; simp [Ex.slim] at hp) rfl (by intro j _; split <;> norm_num) hr (T := 0)
    (by rfl) hlen
  have hp := Ex.slim_selected h hvis htr
  have hmean : Spec.mean (s1'.gen.rows.map (squaresCost 2 (fun j => if j = 0 then 1 else 0) 0)) = 1 / 5000 := by
    have hpc := hp.map (squaresCost 2 (fun j => if j = 0 then 1 else 0) 0)
    unfold Spec.mean
    rw [hpc.sum_eq, hpc.length_eq]
    norm_num [squaresCost, Finset.sum_range_succ]
  have hp0 : (col s1'.gen.rows 0).Perm (col [[0, 0], [1/50, 4], [1/50, -4], [0, 0]] 0) := hp.map _
  have hvar : Spec.variance (col s1'.gen.rows 0) = (1 / 100) ^ 2 := by
    rw [variance_perm hp0]
    norm_num [Spec.variance, Spec.mean, col]
  refine ⟨res, s, s1, s1', hr, hvis, htr, hmean, m, hE, ?_⟩
  have hle : Spec.mean (s1'.gen.rows.map (squaresCost 2 (fun j => if j = 0 then 1 else 0) 0)) + ∑ j ∈ Finset.range 2,
    (if j = 0 then 1 else 0) * (Real.sqrt (Spec.variance (col s1'.gen.rows j)) - Spec.variance (col s1'.gen.rows j)) ≤ m :=
    hle
  rw [hmean, Finset.sum_range_succ, Finset.sum_range_one, if_pos rfl, if_neg (by omega), hvar,
    Real.sqrt_sq (by norm_num)] at hle
  norm_num at hle
  linarith

end Verif
