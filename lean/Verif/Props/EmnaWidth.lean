/-
C107: `EMNA` draws the spread of every variable towards 1, whatever its unit is.
-/
import Verif.Lemmas.KdeSpread

set_option linter.unusedSectionVars false

namespace Verif

open PyCost Spec MeasureTheory ProbabilityTheory

namespace Spec

/-- The sample variance (divided by `N - 1`) of variable `j`. -/
noncomputable def sampleVar (j : ℕ) (rows : List (List ℝ)) : ℝ := Spec.covariance (col rows j) (col rows j)

end Spec

section algebra
variable {n : ℕ} {c a : ℕ → ℕ → ℝ}

/-- The variances of what numpy samples are at least the diagonal entries of the matrix it is given. -/
theorem svdRoot_diag (hs : ∀ i < n, ∀ j < n, c i j = c j i) (hr : IsSvdRoot n c a) (j : Fin n) :
    c j j ≤ ∑ k ∈ Finset.range n, a k j ^ 2 := by
  have hr' := hr
  obtain ⟨u, v, s, hu, hv, hv', hs0, hc, ha⟩ := hr'
  have hsym : (toMat n c).transpose = toMat n c := by
    ext i j; exact hs j j.2 i i.2
  have hP : (u * Matrix.diagonal s * u.transpose).PosSemidef := by
    have := (Matrix.PosSemidef.diagonal (n := Fin n) (d := s) (fun i => hs0 i)).mul_mul_conjTranspose_same u
    rwa [Matrix.conjTranspose_eq_transpose_of_trivial] at this
  have hsq : (u * Matrix.diagonal s * u.transpose) * (u * Matrix.diagonal s * u.transpose) = toMat n c * toMat n c := by
    have : toMat n c * toMat n c = toMat n c * (toMat n c).transpose := by rw [hsym]
    rw [this, hc]
    simp only [Matrix.transpose_mul, Matrix.diagonal_transpose, Matrix.mul_assoc]
    rw [← Matrix.mul_assoc v v.transpose, hv, Matrix.one_mul]
    rw [← Matrix.mul_assoc u.transpose u, hu, Matrix.one_mul]
  have hgram := congrFun (congrFun (svdRoot_gram_unique hs hr hP hsq) j) j
  have e1 : ((toMat n a).transpose * toMat n a) j j = ∑ k ∈ Finset.range n, a k j ^ 2 := by
    rw [Matrix.mul_apply, Finset.sum_range]
    exact Finset.sum_congr rfl fun k _ => by rw [Matrix.transpose_apply, pow_two]; rfl
  have e2 : (u * Matrix.diagonal s * u.transpose) j j = ∑ k, s k * u j k ^ 2 := by
    rw [Matrix.mul_apply]
    exact Finset.sum_congr rfl fun k _ => by rw [Matrix.mul_diagonal, Matrix.transpose_apply]; ring
  have e3 : ((toMat n a).transpose * toMat n a) j j = ∑ k, s k * v k j ^ 2 := by
    rw [ha, Matrix.mul_apply]
    refine Finset.sum_congr rfl fun k _ => ?_
    rw [Matrix.transpose_apply, Matrix.diagonal_mul]
    have := Real.mul_self_sqrt (hs0 k)
    linear_combination v k j ^ 2 * this
  have e4 : c j j = ∑ k, u j k * s k * v k j := by
    have := congrFun (congrFun hc j) j
    rw [Matrix.mul_apply] at this
    refine this.trans (Finset.sum_congr rfl fun k _ => by rw [Matrix.mul_diagonal])
  rw [← e1]
  have h5 : 2 * c j j ≤ (∑ k, s k * u j k ^ 2) + ∑ k, s k * v k j ^ 2 := by
    rw [e4, Finset.mul_sum, ← Finset.sum_add_distrib]
    refine Finset.sum_le_sum fun k _ => ?_
    nlinarith [mul_nonneg (hs0 k) (sq_nonneg (u j k - v k j))]
  rw [← e2, ← hgram, ← e3] at h5
  linarith

end algebra

section draws
variable {n : ℕ} (μ : ℝ) (c : ℕ → ℝ)

/-- The moments of a number computed from independent normal draws. -/
theorem normal_moments : MemLp (fun z : ℕ → ℝ => μ + ∑ k ∈ Finset.range n, z k * c k) 2
      (Measure.infinitePi fun _ : ℕ => gaussianReal 0 1) ∧
    ∫ z : ℕ → ℝ, μ + ∑ k ∈ Finset.range n, z k * c k ∂(Measure.infinitePi fun _ : ℕ => gaussianReal 0 1) = μ ∧
    ProbabilityTheory.variance (fun z : ℕ → ℝ => μ + ∑ k ∈ Finset.range n, z k * c k)
      (Measure.infinitePi fun _ : ℕ => gaussianReal 0 1) = ∑ k ∈ Finset.range n, c k ^ 2 := by
  set ν : Measure (ℕ → ℝ) := Measure.infinitePi (fun _ : ℕ => gaussianReal 0 1) with hν
  have hmp := fun k => measurePreserving_eval_infinitePi (fun _ : ℕ => gaussianReal 0 1) k
  have hterm : ∀ k, Measurable fun x : ℝ => x * c k := fun k => by fun_prop
  have hlp : ∀ k, MemLp (fun x : ℝ => x * c k) 2 (gaussianReal 0 1) := fun k => (memLp_id_gaussianReal 2).mul_const _
  have hlp' : ∀ k, MemLp (fun z : ℕ → ℝ => z k * c k) 2 ν := fun k => (hlp k).comp_measurePreserving (hmp k)
  have hind := iIndepFun_infinitePi (P := fun _ : ℕ => gaussianReal 0 1) (X := fun k x => x * c k) hterm
  have hvark : ∀ k, ProbabilityTheory.variance (fun z : ℕ → ℝ => z k * c k) ν = c k ^ 2 := by
    intro k
    have h1 : ProbabilityTheory.variance (fun z : ℕ → ℝ => z k * c k) ν =
        ProbabilityTheory.variance (fun x : ℝ => x * c k) (gaussianReal 0 1) :=
      (hmp k).variance_fun_comp (hlp k).aemeasurable
    rw [h1]
    have : (fun x : ℝ => x * c k) = fun x => c k * x := by funext x; ring
    rw [this, variance_const_mul, variance_fun_id_gaussianReal]
    simp
  have hS : MemLp (∑ k ∈ Finset.range n, fun z : ℕ → ℝ => z k * c k) 2 ν := memLp_finsetSum' _ fun k _ => hlp' k
  have hfun : (fun z : ℕ → ℝ => μ + ∑ k ∈ Finset.range n, z k * c k) =
      fun z => μ + (∑ k ∈ Finset.range n, fun z : ℕ → ℝ => z k * c k) z := by
    funext z; rw [Finset.sum_apply]
  have h2 : MemLp (fun z : ℕ → ℝ => μ + ∑ k ∈ Finset.range n, z k * c k) 2 ν := by
    rw [hfun]; exact (memLp_const μ).add hS
  have hv : ProbabilityTheory.variance (fun z : ℕ → ℝ => μ + ∑ k ∈ Finset.range n, z k * c k) ν =
      ∑ k ∈ Finset.range n, c k ^ 2 := by
    rw [hfun, variance_const_add hS.aestronglyMeasurable,
      IndepFun.variance_sum (fun k _ => hlp' k) fun i _ j _ hij => hind.indepFun hij]
    exact Finset.sum_congr rfl fun k _ => hvark k
  refine ⟨h2, ?_, hv⟩
  have hzero : ∀ k, ∫ z : ℕ → ℝ, z k * c k ∂ν = 0 := by
    intro k
    have h1 : ∫ z : ℕ → ℝ, z k * c k ∂ν = ∫ x : ℝ, x * c k ∂(gaussianReal 0 1) := by
      rw [← (hmp k).map_eq, integral_map (hmp k).measurable.aemeasurable (hterm k).aestronglyMeasurable]
    rw [h1, integral_mul_const, integral_id_gaussianReal, zero_mul]
  have hik : ∀ k, Integrable (fun z : ℕ → ℝ => z k * c k) ν := fun k => (hlp' k).integrable one_le_two
  rw [integral_add (integrable_const _) (integrable_finsetSum _ fun k _ => hik k),
    integral_finsetSum _ fun k _ => hik k]
  simp only [hzero, Finset.sum_const_zero, integral_const, probReal_univ, one_smul, add_zero]

/-- The expected sample variance of numbers computed from independent normal draws. -/
theorem normal_spread {m : ℕ} (hm : 2 ≤ m) :
    Integrable (fun z : Draws ℝ => Spec.covariance ((List.range m).map fun i => μ + ∑ k ∈ Finset.range n, z i k * c k)
      ((List.range m).map fun i => μ + ∑ k ∈ Finset.range n, z i k * c k)) Spec.normalDraws ∧
    ∫ z : Draws ℝ, Spec.covariance ((List.range m).map fun i => μ + ∑ k ∈ Finset.range n, z i k * c k)
      ((List.range m).map fun i => μ + ∑ k ∈ Finset.range n, z i k * c k) ∂Spec.normalDraws =
      ∑ k ∈ Finset.range n, c k ^ 2 := by
  set ν : Measure (ℕ → ℝ) := Measure.infinitePi (fun _ : ℕ => gaussianReal 0 1) with hν
  obtain ⟨h2, _, hv⟩ := normal_moments (n := n) μ c
  rw [← hν] at h2 hv
  have hmeas : Measurable fun z : ℕ → ℝ => μ + ∑ k ∈ Finset.range n, z k * c k := by fun_prop
  have hmp' := fun i => measurePreserving_eval_infinitePi (fun _ : ℕ => ν) i
  have hind' := iIndepFun_infinitePi (P := fun _ : ℕ => ν) (X := fun _ z => μ + ∑ k ∈ Finset.range n, z k * c k)
    fun _ => hmeas
  have hP : IsProbabilityMeasure Spec.normalDraws := by unfold Spec.normalDraws; infer_instance
  refine exp_sample_var (P := Spec.normalDraws) (Y := fun i z => μ + ∑ k ∈ Finset.range n, z i k * c k)
    (μ := ∫ z, μ + ∑ k ∈ Finset.range n, z k * c k ∂ν) hm
    (fun i => h2.comp_measurePreserving (hmp' i)) (fun i j hij => hind'.indepFun hij) (fun i => ?_) (fun i => ?_)
  · rw [← (hmp' i).map_eq, integral_map (hmp' i).measurable.aemeasurable hmeas.aestronglyMeasurable]
    rfl
  · have hi : MeasurePreserving (fun z : Draws ℝ => z i) Spec.normalDraws ν := hmp' i
    exact (hi.variance_fun_comp (f := fun z : ℕ → ℝ => μ + ∑ k ∈ Finset.range n, z k * c k) h2.aemeasurable).trans hv

end draws

section model
variable {fac : List (List ℝ) → List (List ℝ)}

/-- **C107** The model: the expected sample variance of variable `j` in what `MultiGauss` samples is at least the standard
deviation (not the variance) of this variable in the data it was learned from, and exactly this deviation if the
learned matrix is positive semidefinite. -/
theorem C107_model {b b' : MultiGauss ℝ} {g : Gen (List ℝ)} (h : b.learn Real.sqrt g = .ok b') (hc : g.cols = b.n)
    (hfac : Decomposes b.n fac) {size : ℤ} (hs : 2 ≤ size) {j : ℕ} (hj : j < b.n) :
    ∃ X : Draws ℝ → ℝ, (∀ z, ∃ out, b'.sample fac size z = .ok out ∧ out.rows.length = size.toNat ∧
        X z = sampleVar j out.rows) ∧
      Integrable X Spec.normalDraws ∧ Real.sqrt (Spec.variance (col g.rows j)) ≤ ∫ z, X z ∂Spec.normalDraws ∧
      (PSD b.n (entry b'.cov) → ∫ z, X z ∂Spec.normalDraws = Real.sqrt (Spec.variance (col g.rows j))) := by
  have hb' : b' = { b with
      means := (List.range b.n).map (colMean g.rows)
      cov := (List.range b.n).map (fun i => (List.range b.n).map (fun j =>
        if i = j then colStd Real.sqrt g.rows i else clampEntry b.lb b.ub (covEntry g.rows i j))) } := by
    unfold MultiGauss.learn at h
    split at h
    · cases h
    split at h
    · cases h
    split at h
    · cases h
    rw [← Except.ok.inj h, hc]
  have hgood : b'.Good b.n := by
    rw [hb']
    refine ⟨rfl, by simp, by simp, ?_⟩
    intro r hr
    simp only [List.mem_map] at hr
    obtain ⟨i, _, rfl⟩ := hr
    simp
  have hsym : ∀ i < b.n, ∀ j < b.n, entry b'.cov i j = entry b'.cov j i := by
    intro i hi j hj
    rw [hb']
    simp only
    rw [entry_map hi hj, entry_map hj hi, covEntry_eq, covEntry_eq, covariance_comm j i]
    by_cases hij : i = j
    · rw [hij]
    · rw [if_neg hij, if_neg (Ne.symm hij)]
  have hdiag : entry b'.cov j j = Real.sqrt (Spec.variance (col g.rows j)) := by
    rw [hb']
    simp only
    rw [entry_map hj hj, if_pos rfl, colStd_eq]
  obtain ⟨hi, hE⟩ := normal_spread (n := b.n) (b'.means.getD j 0) (fun k => entry (fac b'.cov) k j) (m := size.toNat)
    (by omega)
  refine ⟨_, fun z => ⟨_, MultiGauss.sample_eq hgood (by omega) z, by simp, ?_⟩, hi, ?_, fun hpsd => ?_⟩
  · have : col ((List.range size.toNat).map (fun i => (List.range b.n).map (fun j => b'.means.getD j 0 +
        ((List.range b.n).map (fun k => z i k * entry (fac b'.cov) k j)).sum))) j =
        (List.range size.toNat).map fun i => b'.means.getD j 0 +
          ∑ k ∈ Finset.range b.n, z i k * entry (fac b'.cov) k j := by
      unfold col
      rw [List.map_map]
      refine List.map_congr_left fun i _ => ?_
      simp only [Function.comp]
      rw [List.getD_eq_getElem?_getD, List.getElem?_map, List.getElem?_range hj, Option.map_some, Option.getD_some,
        sum_map_listRange]
    rw [sampleVar, this]
  · rw [hE, ← hdiag]
    exact svdRoot_diag hsym (hfac _ hsym) ⟨j, hj⟩
  · rw [hE, ← hdiag, ← (svdRoot_gram_iff hsym (hfac _ hsym)).2 hpsd j hj j hj]
    exact Finset.sum_congr rfl fun k _ => by rw [pow_two]

end model

section run
variable {fl : ℝ → ℝ} {fac : List (List ℝ) → List (List ℝ)} {cfg : EMNACfg ℝ} {env : Env ℝ}
variable {f : ℕ → List ℝ → ℝ} {ftol : ℝ} {ρ : Rand (Draws ℝ)}
variable {e : Eda (List ℝ) (MultiGauss ℝ) (Draws ℝ)} {b : MultiGauss ℝ}

/-- **C107** A run: given the generations before, the expected sample variance of variable `j` in the last generation is at
least the standard deviation of this variable in the individuals selected from the generation before (see C09); so it
is greater than their variance if that is less than 1.  If the learned matrix is positive semidefinite it is equal to
the deviation, hence less than the variance if that is greater than 1. -/
theorem C107_run (hv : env.Valid) (h : EMNA fl Real.sqrt fac cfg = .ok (e, b)) (hfac : Decomposes cfg.base.nVars fac)
    (hsize : 2 ≤ cfg.base.sizeGen)
    (hcpu : cfg.base.parallel = true → (env.cpu : ℤ) ≤ cfg.base.sizeGen) (hnz : cfg.base.noiseAttr = 0)
    {res : EdaResult (List ℝ) ℝ} {s : St (List ℝ) ℝ (MultiGauss ℝ)} (hrun : minimize env e f ftol b ρ = .ok (res, s))
    {T : ℕ} (hmax : cfg.base.maxIter = T + 2) (hlen : res.history.length = T + 2) :
    ∃ s1 s1' pm', Visited env e f ftol b ρ (T + 1) s1 ∧ truncation env e s1 = .ok s1' ∧
      s1.pm.learn Real.sqrt s1'.gen = .ok pm' ∧
      ∀ j < cfg.base.nVars, ∃ X : Draws ℝ → ℝ, (∀ z, ∃ res' s', minimize env e f ftol b
          (replaceDraws ρ (T + 1) z) = .ok (res', s') ∧ s'.log.dropLast = s.log.dropLast ∧
            X z = sampleVar j ((s'.log.getD (T + 1) []).map Prod.fst)) ∧
        Integrable X Spec.normalDraws ∧
        Real.sqrt (Spec.variance (col s1'.gen.rows j)) ≤ ∫ z, X z ∂Spec.normalDraws ∧
        (0 < Spec.variance (col s1'.gen.rows j) → Spec.variance (col s1'.gen.rows j) < 1 →
          Spec.variance (col s1'.gen.rows j) < ∫ z, X z ∂Spec.normalDraws) ∧
        (PSD cfg.base.nVars (entry pm'.cov) →
          ∫ z, X z ∂Spec.normalDraws = Real.sqrt (Spec.variance (col s1'.gen.rows j)) ∧
          (1 < Spec.variance (col s1'.gen.rows j) →
            ∫ z, X z ∂Spec.normalDraws < Spec.variance (col s1'.gen.rows j))) := by
  obtain ⟨he, _, hb⟩ := EMNA_ok h
  have hm := mkEda_ok he
  obtain ⟨s1, s1', noise, noisy, pm', hvis, hn, htr, hno, hu, hsm, hlog, hother⟩ :=
    last_pass hv hrun (by rw [hm.maxIter]; exact hmax) hlen (fun _ _ => field_isNum _)
  have hsame : noisy = s1'.gen := mkNoise_clean hm hnz hn hno
  rw [hm.updatePm, hsame] at hu
  have hu : s1.pm.learn Real.sqrt s1'.gen = .ok pm' := hu
  obtain ⟨k1, _, _⟩ := emna_key h hvis
  have hl1 := visited_log_len hvis
  have hcols : s1'.gen.cols = s1.pm.n := by
    have hu' := hu
    unfold MultiGauss.learn at hu'
    split at hu'
    · simp at hu'
    split at hu'
    · simp at hu'
    split at hu'
    · simp at hu'
    have hu' := (Except.ok.inj hu').symm
    rw [hm.sample] at hsm
    have hsm : pm'.sample fac cfg.base.sizeGen (ρ.sample (T + 1)) = .ok s.gen := hsm
    unfold MultiGauss.sample at hsm
    split at hsm
    · simp at hsm
    split at hsm
    · simp at hsm
    split at hsm
    · simp at hsm
    rename_i h4
    have h4 := not_not.1 h4
    rw [hu'] at h4
    simpa using h4.symm
  refine ⟨s1, s1', pm', hvis, htr, hu, fun j hj => ?_⟩
  obtain ⟨X, hX, hi, hle, heq⟩ := C107_model (fac := fac) hu hcols (by rw [k1]; exact hfac)
    (size := cfg.base.sizeGen) hsize (j := j) (by rw [k1]; exact hj)
  rw [k1] at heq
  refine ⟨X, fun z => ?_, hi, hle, fun h0 h1 => lt_of_lt_of_le ?_ hle, fun hpsd => ⟨heq hpsd, fun h1 => ?_⟩⟩
  · obtain ⟨out, ho, hol, hx⟩ := hX z
    obtain ⟨res', s', r1, r2, r3, _⟩ := hother z out (by rw [hm.sample]; exact ho)
      (by intro h0; rw [h0] at hol; simp at hol; omega)
      (by intro hp; rw [hm.parallel] at hp; have := hcpu hp; omega)
    have hal : s'.evals.length = out.rows.length := by
      have := ‹s'.evals = callRows f s1.log.flatten.length out.rows›
      rw [this]; simp [callRows]
    refine ⟨res', s', r1, by rw [r3, hlog, List.dropLast_concat, List.dropLast_concat], ?_⟩
    rw [hx, r3, List.getD_eq_getElem?_getD, ← hl1, List.getElem?_append_right le_rfl]
    simp [List.map_fst_zip, hal]
  · exact Real.lt_sqrt_of_sq_lt (by nlinarith)
  · rw [heq hpsd]
    exact (Real.sqrt_lt' (by linarith)).2 (by nlinarith)

end run

/-- C107, the model: in the data the deviations are 1/100 and 100, so the variances are 1/10000 and 10000; the expected
sample variances of what is sampled from the learned model are 1/100 and 100. -/
example : ∃ fac : List (List ℝ) → List (List ℝ), Decomposes 2 fac ∧ ∃ b' : MultiGauss ℝ,
    (MultiGauss.new 2 0 100).learn Real.sqrt { dt := .float, cols := 2, rows := [[0, 0], [1/50, 0], [0, 200], [1/50, 200]] } =
      .ok b' ∧
    ∀ j < 2, ∃ X : Draws ℝ → ℝ, (∀ z, ∃ out, b'.sample fac 10 z = .ok out ∧ X z = sampleVar j out.rows) ∧
      ∫ z, X z ∂Spec.normalDraws = if j = 0 then 1/100 else 100 := by
  obtain ⟨fac, hfac⟩ : ∃ fac, Decomposes 2 fac := svdRoots_symmetric 2
  have hl := MultiGauss.learn_eq (sq := Real.sqrt) (b := MultiGauss.new 2 (0 : ℝ) 100)
    (g := { dt := .float, cols := 2, rows := [[0, 0], [1/50, 0], [0, 200], [1/50, 200]] }) rfl (by simp [MultiGauss.new])
    (by simp)
  refine ⟨fac, hfac, _, hl, fun j hj => ?_⟩
  obtain ⟨X, hX, _, _, hE⟩ := C107_model (fac := fac) hl rfl hfac (size := 10) (by norm_num) (j := j) hj
  refine ⟨X, fun z => ?_, ?_⟩
  · obtain ⟨out, h1, _, h2⟩ := hX z
    exact ⟨out, h1, h2⟩
  · rw [hE]
    · interval_cases j
      · rw [show Spec.variance (col ([[0, 0], [1/50, 0], [0, 200], [1/50, 200]] : List (List ℝ)) 0) = (1/100) ^ 2 by
          norm_num [Spec.variance, Spec.mean, col], Real.sqrt_sq (by norm_num)]
        simp
      · rw [show Spec.variance (col ([[0, 0], [1/50, 0], [0, 200], [1/50, 200]] : List (List ℝ)) 1) = 100 ^ 2 by
          norm_num [Spec.variance, Spec.mean, col], Real.sqrt_sq (by norm_num)]
        simp
    · intro x
      have h0 : clampEntry (0 : ℝ) 100 (covEntry [[0, 0], [1/50, 0], [0, 200], [1/50, 200]] 0 1) = 0 := by
        rw [covEntry_eq]; norm_num [Spec.covariance, Spec.mean, col, clampEntry]
      have h1 : clampEntry (0 : ℝ) 100 (covEntry [[0, 0], [1/50, 0], [0, 200], [1/50, 200]] 1 0) = 0 := by
        rw [covEntry_eq]; norm_num [Spec.covariance, Spec.mean, col, clampEntry]
      change 0 ≤ ∑ i ∈ Finset.range 2, ∑ j ∈ Finset.range 2, x i * entry ((List.range 2).map fun i => (List.range 2).map
        fun j => if i = j then colStd Real.sqrt [[0, 0], [1/50, 0], [0, 200], [1/50, 200]] i else
          clampEntry 0 100 (covEntry [[0, 0], [1/50, 0], [0, 200], [1/50, 200]] i j)) i j * x j
      simp only [Finset.sum_range_succ, Finset.sum_range_zero]
      rw [entry_map (by omega) (by omega), entry_map (by omega) (by omega), entry_map (by omega) (by omega),
        entry_map (by omega) (by omega), if_pos rfl, if_pos rfl, if_neg (by omega), if_neg (by omega), h0, h1, colStd_eq,
        colStd_eq]
      have a0 := mul_nonneg (Real.sqrt_nonneg (Spec.variance (col ([[0, 0], [1/50, 0], [0, 200], [1/50, 200]] :
        List (List ℝ)) 0))) (sq_nonneg (x 0))
      have a1 := mul_nonneg (Real.sqrt_nonneg (Spec.variance (col ([[0, 0], [1/50, 0], [0, 200], [1/50, 200]] :
        List (List ℝ)) 1))) (sq_nonneg (x 1))
      nlinarith

/-- Three individuals that differ little in the first variable are given; the first one is kept as the elite, so four are
there to select from, and all four are selected. -/
noncomputable def Ex.slim : EMNACfg ℝ :=
  { base := { sizeGen := 4, maxIter := 2, deadIter := 0, nVars := 2, alpha := 1, eliteFactor := 1/4,
              parallel := false, wNoise := none,
              initData := some { dt := .float, cols := 2, rows := [[0, 0], [1/50, 4], [1/50, -4]] } }
    lower := .scalar 0, upper := .scalar 5, lowerFactor := 1/2, upperFactor := 100 }

theorem Ex.slim_valid : UniformValid realEnv.cpu id Ex.slim.base Ex.slim.lower Ex.slim.upper 3 where
  dead := by norm_num [Ex.slim]
  size := by norm_num [Ex.slim]
  pos := by norm_num
  trunc := by norm_num [Ex.slim, selLen, pyInt, Num.truncZ]
  cpu := by intro h; simp [Ex.slim] at h
  noise := .inl rfl
  lower := trivial
  upper := trivial
  data := by
    intro d hd
    simp only [Ex.slim, Option.some.injEq] at hd
    subst hd
    refine ⟨⟨rfl, ?_, by simp, by simp⟩, by simp⟩
    intro r hr
    simp only [List.mem_cons, List.not_mem_nil, or_false] at hr
    rcases hr with rfl | rfl | rfl <;> rfl

theorem variance_perm {l l' : List ℝ} (h : l.Perm l') : Spec.variance l = Spec.variance l' := by
  have hm : Spec.mean l = Spec.mean l' := by unfold Spec.mean; rw [h.sum_eq, h.length_eq]
  unfold Spec.variance
  rw [hm]
  unfold Spec.mean
  rw [(h.map _).sum_eq, List.length_map, List.length_map, h.length_eq]

theorem Ex.slim_selected {fac : List (List ℝ) → List (List ℝ)} {e : Eda (List ℝ) (MultiGauss ℝ) (Draws ℝ)}
    {b : MultiGauss ℝ} (h : EMNA id Real.sqrt fac Ex.slim = .ok (e, b)) {f : ℕ → List ℝ → ℝ} {ρ : Rand (Draws ℝ)}
    {s1 s1' : St (List ℝ) ℝ (MultiGauss ℝ)} (hvis : Visited realEnv e f 0 b ρ (0 + 1) s1)
    (htr : truncation realEnv e s1 = .ok s1') : s1'.gen.rows.Perm [[0, 0], [1/50, 4], [1/50, -4], [0, 0]] := by
  have hm := mkEda_ok (EMNA_ok h).1
  have ha := visited_aligned realEnv_valid hvis
  obtain ⟨P, p1, _, p3, _⟩ := truncation_ok realEnv_valid ha htr
  have hrows : s1.gen.rows = [[0, 0], [1/50, 4], [1/50, -4]] ∧ s1.elite.rows = [[0, 0]] := by
    generalize ht : 0 + 1 = t at hvis
    cases hvis with
    | next h0 _ _ =>
      have := visited_log_len h0
      cases h0 <;> omega
    | first h0 =>
      obtain ⟨_, _, _, _, _, hs⟩ := start_ok h0
      have hi := hs.init
      rw [(hm.initSome _ rfl).2] at hi
      have hi := (congrArg Gen.rows (Except.ok.inj hi)).symm
      have h0 := hs.row0
      rw [hi] at h0
      refine ⟨hi, ?_⟩
      rw [hs.elite]
      simpa using h0.symm
  have hpl := p1.length_eq
  rw [poolOf_length ha, hrows.1, hrows.2] at hpl
  have hT : e.truncLen = 4 := by rw [hm.truncLen]; norm_num [Ex.slim, selLen, pyInt, Num.truncZ]
  rw [p3, List.take_of_length_le (by unfold sliceLen; rw [hT, hpl]; norm_num)]
  have := p1.map Prod.fst
  rwa [poolOf_eq ha, List.map_append, List.map_fst_zip (by rw [ha.1]), List.map_fst_zip (by rw [ha.2]), hrows.1,
    hrows.2] at this

/-- C107, a run with the default `lower_factor`, for every cost function: the four individuals selected have the variance
1/10000 in the first variable; the next generation is expected to have at least 1/100, a hundred times as much. -/
example : ∃ fac : List (List ℝ) → List (List ℝ), Decomposes 2 fac ∧ ∃ e b, EMNA id Real.sqrt fac Ex.slim = .ok (e, b) ∧
    ∀ (f : ℕ → List ℝ → ℝ) (ρ : Rand (Draws ℝ)), ∃ s1 s1', Visited realEnv e f 0 b ρ 1 s1 ∧
      truncation realEnv e s1 = .ok s1' ∧ Spec.variance (col s1'.gen.rows 0) = 1 / 10000 ∧
      ∃ X : Draws ℝ → ℝ, (∀ z, ∃ res' s', minimize realEnv e f 0 b (replaceDraws ρ 1 z) = .ok (res', s') ∧
          X z = sampleVar 0 ((s'.log.getD 1 []).map Prod.fst)) ∧
        1 / 100 ≤ ∫ z, X z ∂Spec.normalDraws := by
  obtain ⟨fac, hfac⟩ : ∃ fac, Decomposes 2 fac := svdRoots_symmetric 2
  have hrun : ∀ (f : ℕ → List ℝ → ℝ) (ρ : Rand (Draws ℝ)), ∃ e b,
      EMNA id Real.sqrt fac Ex.slim = .ok (e, b) ∧ ∃ res s, minimize realEnv e f 0 b ρ = .ok (res, s) :=
    fun f ρ => C53_EMNA_never_raises realEnv_valid Ex.slim_valid (by norm_num [Ex.slim]) (by norm_num)
      (by norm_num [Ex.slim, selLen, pyInt, Num.truncZ]) (fun _ _ => field_isNum _)
  obtain ⟨e, b, h, _⟩ := hrun (fun _ _ => 0) ⟨fun _ _ => 0, fun _ _ => 0, fun _ _ _ => 0, fun _ _ _ => 0⟩
  refine ⟨fac, hfac, e, b, h, fun f ρ => ?_⟩
  obtain ⟨e', b', h', res, s, hr⟩ := hrun f ρ
  rw [h] at h'
  obtain ⟨rfl, rfl⟩ := Prod.mk.inj (Except.ok.inj h')
  have hm := mkEda_ok (EMNA_ok h).1
  have hlen : res.history.length = 2 := by
    have := (C06_dead_iter hr).2.2 (by rw [hm.deadIter]; rfl)
    rw [hm.maxIter] at this
    have h3 : (res.history.length : ℤ) = 2 := by simpa [Ex.slim] using this
    exact_mod_cast h3
  obtain ⟨s1, s1', pm', hvis, htr, _, key⟩ := C107_run realEnv_valid h hfac (by norm_num [Ex.slim])
    (by intro hp; simp [Ex.slim] at hp) rfl hr (T := 0) (by rfl) hlen
  have hvar : Spec.variance (col s1'.gen.rows 0) = 1 / 10000 := by
    have hp := Ex.slim_selected h hvis htr
    have hp0 : (col s1'.gen.rows 0).Perm (col [[0, 0], [1/50, 4], [1/50, -4], [0, 0]] 0) := hp.map _
    rw [variance_perm hp0]
    norm_num [Spec.variance, Spec.mean, col]
  obtain ⟨X, hX, _, hle, _⟩ := key 0 (by norm_num [Ex.slim])
  refine ⟨s1, s1', hvis, htr, hvar, X, fun z => ?_, ?_⟩
  · obtain ⟨r1, r2, h1, _, h3⟩ := hX z
    exact ⟨r1, r2, h1, h3⟩
  · rwa [hvar, show (1 / 10000 : ℝ) = (1 / 100) ^ 2 by norm_num, Real.sqrt_sq (by norm_num)] at hle

end Verif
