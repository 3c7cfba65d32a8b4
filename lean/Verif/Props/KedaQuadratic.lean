/-
C110: what `UnivariateKEDA` is expected to cost on a sum of squares.
-/
import Verif.Props.KedaSpread
import Verif.Props.Quadratic

set_option linter.unusedSectionVars false

namespace Verif

open PyCost Spec MeasureTheory ProbabilityTheory

section row
variable {n N : ℕ} (F : ℕ → ℝ) (c : ℕ → ℝ)

theorem measurable_kdeVal : Measurable (kdeVal n N F c) := by
  have : kdeVal n N F c = fun z => ∑ j ∈ Finset.range (n + 1), kdeTerm n N F c j (z j) := by
    funext z; exact kdeVal_sum F c z
  rw [this]
  exact Finset.measurable_sum _ fun j _ => (measurable_kdeTerm F c j).comp (measurable_pi_apply j)

/-- The expected value of a linear function at one sampled individual. -/
theorem kdeVal_mean (hN : 0 < N) :
    ∫ z, kdeVal n N F c z ∂Measure.infinitePi (kdeLaw n) = (∑ k ∈ Finset.range N, F k) / N := by
  have hlawn : kdeLaw n n = unif01 := by rw [kdeLaw, if_neg (lt_irrefl n)]
  have hU : IsProbabilityMeasure unif01 := by rw [← hlawn]; infer_instance
  obtain ⟨hp1, hp2⟩ := integral_pick (P := unif01) hN (u := fun x => x) measurable_id HasLaw.id F
  have hi : ∀ j, MeasurePreserving (fun z : ℕ → ℝ => z j) (Measure.infinitePi (kdeLaw n)) (kdeLaw n j) :=
    fun j => measurePreserving_eval_infinitePi (kdeLaw n) j
  have hg : ∀ k < n, Integrable (fun z : ℕ → ℝ => z k * c k) (Measure.infinitePi (kdeLaw n)) ∧
      ∫ z : ℕ → ℝ, z k * c k ∂Measure.infinitePi (kdeLaw n) = 0 := by
    intro k hk
    have hl : kdeLaw n k = gaussianReal 0 1 := by rw [kdeLaw, if_pos hk]
    have h1 : Integrable (fun x : ℝ => x * c k) (kdeLaw n k) := by
      rw [hl]; exact ((memLp_id_gaussianReal 2).mul_const (c k)).integrable (by norm_num)
    refine ⟨(hi k).integrable_comp_of_integrable (g := fun x : ℝ => x * c k) h1, ?_⟩
    have h2 : ∫ x : ℝ, x * c k ∂kdeLaw n k = 0 := by
      rw [hl, integral_mul_const, integral_id_gaussianReal, zero_mul]
    rw [← h2, ← (hi k).map_eq, integral_map (hi k).measurable.aemeasurable (by fun_prop)]
  have hF : Measurable fun x : ℝ => F (pick N x) := (measurable_from_top (f := F)).comp (measurable_pick N)
  have hpk : Integrable (fun z : ℕ → ℝ => F (pick N (z n))) (Measure.infinitePi (kdeLaw n)) :=
    (hi n).integrable_comp_of_integrable (g := fun x : ℝ => F (pick N x)) (by rw [hlawn]; exact hp1)
  unfold kdeVal
  rw [integral_add hpk (integrable_finsetSum _ fun k hk => (hg k (Finset.mem_range.1 hk)).1),
    integral_finsetSum _ fun k hk => (hg k (Finset.mem_range.1 hk)).1,
    Finset.sum_eq_zero fun k hk => (hg k (Finset.mem_range.1 hk)).2, add_zero, ← hp2]
  have : ∫ z : ℕ → ℝ, F (pick N (z n)) ∂Measure.infinitePi (kdeLaw n) = ∫ x, F (pick N x) ∂kdeLaw n n := by
    rw [← (hi n).map_eq, integral_map (hi n).measurable.aemeasurable hF.aestronglyMeasurable]
  rw [this, hlawn]

/-- The expected square of a linear function at one sampled individual. -/
theorem kdeVal_second (hN : 0 < N) (i : ℕ) :
    Integrable (fun z : Draws ℝ => kdeVal n N F c (z i) ^ 2) (drawsLaw (kdeLaw n)) ∧
    ∫ z : Draws ℝ, kdeVal n N F c (z i) ^ 2 ∂drawsLaw (kdeLaw n) =
      (∑ k ∈ Finset.range N, F k * F k) / N + ∑ k ∈ Finset.range n, c k ^ 2 := by
  obtain ⟨h2, hv⟩ := kdeVal_moments (n := n) F c hN
  set ν : Measure (ℕ → ℝ) := Measure.infinitePi (kdeLaw n) with hν
  have hi : MeasurePreserving (fun z : Draws ℝ => z i) (drawsLaw (kdeLaw n)) ν :=
    measurePreserving_eval_infinitePi (fun _ : ℕ => ν) i
  have hmeas : Measurable fun z : ℕ → ℝ => kdeVal n N F c z ^ 2 := (measurable_kdeVal F c).pow_const 2
  have hsq : ∫ z : ℕ → ℝ, kdeVal n N F c z ^ 2 ∂ν =
      (∑ k ∈ Finset.range N, F k * F k) / N + ∑ k ∈ Finset.range n, c k ^ 2 := by
    have := variance_eq_sub h2
    rw [hv, kdeVal_mean F c hN] at this
    have e : ∫ z : ℕ → ℝ, (kdeVal n N F c ^ 2) z ∂ν = ∫ z : ℕ → ℝ, kdeVal n N F c z ^ 2 ∂ν := rfl
    rw [e] at this
    linarith
  constructor
  · exact hi.integrable_comp_of_integrable (g := fun z : ℕ → ℝ => kdeVal n N F c z ^ 2) h2.integrable_sq
  · rw [← hsq, ← hi.map_eq, integral_map hi.measurable.aemeasurable hmeas.aestronglyMeasurable]

end row

section model
variable {isPD : List (List ℝ) → Bool} {h2 : ℕ → ℕ → ℝ} {fac : List (List ℝ) → List (List ℝ)} {n : ℕ} {a o : ℕ → ℝ}

theorem mean_rows_range {R : Type} (x : R) (rows : List R) (c : R → ℝ) :
    Spec.mean (rows.map c) = (∑ k ∈ Finset.range rows.length, c (rows.getD k x)) / rows.length := by
  have : rows.map c = (List.range rows.length).map fun k => c (rows.getD k x) := by
    apply List.ext_getElem (by simp)
    intro i h1 h3
    simp only [List.length_map] at h1
    simp [h1]
  unfold Spec.mean
  rw [List.length_map, this, sum_map_listRange]

/-- **C110** The model: on a sum of squares the individuals that `UniKDE` samples cost on average exactly what the
individuals it was learned from cost, plus `h²` times the weighted sum of their sample variances. -/
theorem C110_model {b b' : UniKDE ℝ} {g : Gen (List ℝ)} (h : b.learn isPD h2 g = .ok b') (hc : g.cols = n)
    (hh : 0 ≤ h2 g.rows.length n) (hfac : Decomposes n fac) {size : ℤ} (hs : 1 ≤ size) :
    ExpectedCost (drawsLaw (kdeLaw n)) (b'.sample fac size) (squaresCost n a o) size.toNat
      (Spec.mean (g.rows.map (squaresCost n a o)) +
        h2 g.rows.length n * ∑ j ∈ Finset.range n, a j * sampleVar j g.rows) := by
  obtain ⟨hr, _, _, hk⟩ := UniKDE.learn_ok h
  rw [hc] at hk
  set N := g.rows.length with hN
  set c : List (List ℝ) := (List.range n).map (fun i => (List.range n).map (fun j =>
      covEntry g.rows i j * h2 N n)) with hcd
  have hent : ∀ i < n, ∀ j < n, entry c i j = covEntry g.rows i j * h2 N n := by
    intro i hi j hj
    exact entry_map (F := fun i j => covEntry g.rows i j * h2 N n) hi hj
  have hsym : ∀ i < n, ∀ j < n, entry c i j = entry c j i := by
    intro i hi j hj
    rw [hent i hi j hj, hent j hj i hi, covEntry_eq, covEntry_eq, covariance_comm]
  have hpsd : PSD n (entry c) := by
    intro x
    have : ∑ i ∈ Finset.range n, ∑ j ∈ Finset.range n, x i * entry c i j * x j =
        (∑ i ∈ Finset.range n, ∑ j ∈ Finset.range n, x i * covEntry g.rows i j * x j) * h2 N n := by
      rw [Finset.sum_mul]
      refine Finset.sum_congr rfl fun i hi => ?_
      rw [Finset.sum_mul]
      refine Finset.sum_congr rfl fun j hj => ?_
      rw [hent i (Finset.mem_range.1 hi) j (Finset.mem_range.1 hj)]; ring
    rw [this]
    exact mul_nonneg (cov_psd (rows := g.rows) (by omega) n x) hh
  have hgram := (svdRoot_gram_iff hsym (hfac c hsym)).2 hpsd
  set F : ℕ → ℕ → ℝ := fun j k => (g.rows.getD k []).getD j 0 - o j with hF
  have hlen : c.length = n := by simp [hcd]
  obtain ⟨m, rfl⟩ : ∃ m : ℕ, size = m := ⟨size.toNat, by omega⟩
  have hN0 : 0 < N := by omega
  have hsec := fun i j => kdeVal_second (n := n) (F j) (fun k => entry (fac c) k j) hN0 i
  have hint : ∀ i, Integrable (fun z : Draws ℝ => ∑ j ∈ Finset.range n,
      a j * kdeVal n N (F j) (fun k => entry (fac c) k j) (z i) ^ 2) (drawsLaw (kdeLaw n)) := fun i =>
    integrable_finsetSum _ fun j _ => (hsec i j).1.const_mul _
  refine ⟨fun z => (∑ i ∈ Finset.range m, ∑ j ∈ Finset.range n,
    a j * kdeVal n N (F j) (fun k => entry (fac c) k j) (z i) ^ 2) / m, Filter.Eventually.of_forall fun z => ?_, ?_, ?_⟩
  · refine ⟨_, by
      unfold UniKDE.sample
      rw [hk]
      dsimp only
      rw [if_neg (by omega)], by simp, ?_⟩
    have hcost : ((List.range (Int.toNat (m : ℤ))).map fun i =>
        Kde.row fac ⟨g.rows, c⟩ (pick g.rows.length (z i c.length)) (z i)).map (squaresCost n a o) =
        (List.range m).map fun i => ∑ j ∈ Finset.range n,
          a j * kdeVal n N (F j) (fun k => entry (fac c) k j) (z i) ^ 2 := by
      rw [List.map_map, Int.toNat_natCast]
      refine List.map_congr_left fun i _ => ?_
      rw [Function.comp_apply, hlen]
      unfold squaresCost
      refine Finset.sum_congr rfl fun j hj => ?_
      congr 2
      unfold Kde.row kdeVal
      simp only [hlen]
      rw [List.getD_eq_getElem?_getD, List.getElem?_map, List.getElem?_range (Finset.mem_range.1 hj), Option.map_some,
        Option.getD_some, sum_map_listRange]
      simp only [hF]
      ring
    rw [hcost]
    unfold Spec.mean
    rw [List.length_map, List.length_range, sum_map_listRange]
  · exact (integrable_finsetSum _ fun i _ => hint i).div_const _
  · rw [integral_div, integral_finsetSum _ fun i _ => hint i]
    have hone : ∀ i, ∫ z : Draws ℝ, ∑ j ∈ Finset.range n, a j * kdeVal n N (F j) (fun k => entry (fac c) k j) (z i) ^ 2
        ∂drawsLaw (kdeLaw n) = ∑ j ∈ Finset.range n, a j * ((∑ k ∈ Finset.range N, F j k * F j k) / N +
          ∑ k ∈ Finset.range n, entry (fac c) k j ^ 2) := by
      intro i
      rw [integral_finsetSum _ fun j _ => (hsec i j).1.const_mul _]
      exact Finset.sum_congr rfl fun j _ => by rw [integral_const_mul, (hsec i j).2]
    simp only [hone, Finset.sum_const, Finset.card_range, nsmul_eq_mul]
    have hm0 : (m : ℝ) ≠ 0 := by exact_mod_cast (by omega : m ≠ 0)
    rw [mul_div_cancel_left₀ _ hm0]
    simp only [mul_add]
    rw [Finset.sum_add_distrib]
    congr 1
    · rw [mean_rows_range ([] : List ℝ), ← hN]
      unfold squaresCost
      rw [Finset.sum_comm, Finset.sum_div]
      refine Finset.sum_congr rfl fun j _ => ?_
      rw [mul_div_assoc', Finset.mul_sum]
      congr 1
      exact Finset.sum_congr rfl fun k _ => by simp only [hF]; ring
    · rw [Finset.mul_sum]
      refine Finset.sum_congr rfl fun j hj => ?_
      have hj := Finset.mem_range.1 hj
      have e : ∑ k ∈ Finset.range n, entry (fac c) k j ^ 2 = ∑ k ∈ Finset.range n, entry (fac c) k j * entry (fac c) k j :=
        Finset.sum_congr rfl fun k _ => pow_two _
      rw [e, hgram j hj j hj, hent j hj j hj, covEntry_eq]
      unfold sampleVar
      ring

end model

section run
variable {C : Type} [PyCost C] {env : Env C} {f : ℕ → List ℝ → C} {ftol : C} {ρ : Rand (Draws ℝ)}
variable {fl : ℝ → ℝ} {isPD : List (List ℝ) → Bool} {h2 : ℕ → ℕ → ℝ}
variable {fac : List (List ℝ) → List (List ℝ)} {cfg : KedaCfg ℝ}
variable {e : Eda (List ℝ) (UniKDE ℝ) (Draws ℝ)} {b : UniKDE ℝ} {a o : ℕ → ℝ}

/-- **C110** `UnivariateKEDA` without white noise: given the generations before, the individuals of the last generation have
on average exactly the sum of squares of the `N` individuals selected from the generation before, plus `h²` times the
weighted sum of their sample variances. With a bandwidth above 0 and weights at least 0, one of them above 0, this is more
than what the selected individuals cost. -/
theorem C110_run [LawfulCost C] [UniformCost C] (hv : env.Valid) {m : ℕ}
    (hval : UniformValid env.cpu fl cfg.base cfg.lower cfg.upper m) (hn : 1 ≤ cfg.base.nVars) (hm : 2 ≤ m)
    (hsel : 2 ≤ selLen fl cfg.base.sizeGen cfg.base.alpha)
    (hnum : ∀ k r, IsNum (f k r)) (hh : ∀ N d, 0 < N → 0 ≤ h2 N d)
    (hfac : Decomposes cfg.base.nVars fac) (hnz0 : cfg.base.noiseAttr = 0) {t : ℕ} (ht : 1 ≤ t)
    (hmax : cfg.base.maxIter = t + 1) (he : UnivariateKEDA fl isPD h2 fac cfg = .ok (e, b))
    {res : EdaResult (List ℝ) C} {s : St (List ℝ) C (UniKDE ℝ)} (hrun : minimize env e f ftol b ρ = .ok (res, s))
    (hlen : t < res.history.length) :
    ∃ s1 s1', Visited env e f ftol b ρ t s1 ∧ truncation env e s1 = .ok s1' ∧ s1.log = s.log.take t ∧
      ∃ X : Draws ℝ → ℝ, (∀ᵐ z ∂drawsLaw (kdeLaw cfg.base.nVars), ∃ res' s', minimize env e f ftol b
          { ρ with sample := Function.update ρ.sample t z } = .ok (res', s') ∧ s'.log.take t = s.log.take t ∧
            X z = Spec.mean (((s'.log.getD t []).map Prod.fst).map (squaresCost cfg.base.nVars a o))) ∧
        Integrable X (drawsLaw (kdeLaw cfg.base.nVars)) ∧
        ∫ z, X z ∂drawsLaw (kdeLaw cfg.base.nVars) =
          Spec.mean (s1'.gen.rows.map (squaresCost cfg.base.nVars a o)) +
            h2 s1'.gen.rows.length cfg.base.nVars *
              ∑ j ∈ Finset.range cfg.base.nVars, a j * sampleVar j s1'.gen.rows ∧
        (PosDefTest cfg.base.nVars isPD → (∀ N d, 0 < N → 0 < h2 N d) → (∀ j < cfg.base.nVars, 0 ≤ a j) →
          (∃ j < cfg.base.nVars, 0 < a j) → Spec.mean (s1'.gen.rows.map (squaresCost cfg.base.nVars a o)) <
            ∫ z, X z ∂drawsLaw (kdeLaw cfg.base.nVars)) := by
  obtain ⟨s1, s1', pm', hvis, htr, hc, hlog, hlearn, hlast⟩ := keda_last_gen hv hval hn hm hsel hnum hnz0 ht hmax he hrun
    hlen
  obtain ⟨hr, _, hpd, _⟩ := UniKDE.learn_ok hlearn
  obtain ⟨X, hX, hi, hE⟩ := C110_model (a := a) (o := o) (fac := fac) hlearn hc (hh _ _ (by omega)) hfac
    (size := cfg.base.sizeGen) (by have := hval.size; omega)
  refine ⟨s1, s1', hvis, htr, hlog, X, hX.mono fun z hz => ?_, hi, hE, fun hp hpos ha hex => ?_⟩
  · obtain ⟨out, ho, _, hx⟩ := hz
    obtain ⟨res', s', h1, h3, h4⟩ := hlast z out ho
    exact ⟨res', s', h1, h3, by rw [h4, hx]⟩
  · rw [hE]
    rw [hc] at hpd
    have hsv : ∀ j < cfg.base.nVars, 0 < sampleVar j s1'.gen.rows := by
      intro j hj
      have h0 := (hp _ (fun i _ j _ => by rw [covEntry_eq, covEntry_eq, covariance_comm])).1 hpd
        (fun i => if i = j then 1 else 0) ⟨j, hj, by simp⟩
      simp only [ite_mul, mul_ite, one_mul, zero_mul, mul_one, mul_zero, Finset.sum_ite_eq', Finset.mem_range, hj,
        if_true] at h0
      rwa [covEntry_eq] at h0
    obtain ⟨j, hj, haj⟩ := hex
    have hsum : 0 < ∑ j ∈ Finset.range cfg.base.nVars, a j * sampleVar j s1'.gen.rows :=
      Finset.sum_pos' (fun i hi => mul_nonneg (ha i (Finset.mem_range.1 hi)) (hsv i (Finset.mem_range.1 hi)).le)
        ⟨j, Finset.mem_range.2 hj, mul_pos haj (hsv j hj)⟩
    have := mul_pos (hpos s1'.gen.rows.length cfg.base.nVars (by omega)) hsum
    linarith

end run

/-- C110 on the sum of squares in two variables: there is a run of two generations, and given the first one the second is
expected to cost more than what was selected from the first. -/
example : ∃ isPD fac e b ρ res s s1 s1', UnivariateKEDA id isPD (fun N d => (N : ℝ) ^ (-2 / (d + 4) : ℝ)) fac
      (kedaMax Ex.broad 2) = .ok (e, b) ∧
    minimize realEnv e (fun _ => squaresCost 2 (fun _ => 1) fun _ => 0) 0 b ρ = .ok (res, s) ∧
    truncation realEnv e s1 = .ok s1' ∧ s1.log = s.log.take 1 ∧
    ∃ X : Draws ℝ → ℝ, Integrable X (drawsLaw (kdeLaw 2)) ∧
      (∀ᵐ z ∂drawsLaw (kdeLaw 2), ∃ res' s', minimize realEnv e (fun _ => squaresCost 2 (fun _ => 1) fun _ => 0) 0 b
        { ρ with sample := Function.update ρ.sample 1 z } = .ok (res', s') ∧
        X z = Spec.mean (((s'.log.getD 1 []).map Prod.fst).map (squaresCost 2 (fun _ => 1) fun _ => 0))) ∧
      Spec.mean (s1'.gen.rows.map (squaresCost 2 (fun _ => 1) fun _ => 0)) < ∫ z, X z ∂drawsLaw (kdeLaw 2) := by
  obtain ⟨isPD, hp⟩ := posDefTest_exists (K := ℝ) 2
  obtain ⟨fac, hfac⟩ : ∃ fac, Decomposes 2 fac := svdRoots_symmetric 2
  have hh : ∀ N d : ℕ, 0 < N → 0 < (N : ℝ) ^ (-2 / (d + 4) : ℝ) := fun N d h =>
    Real.rpow_pos_of_pos (by exact_mod_cast h) _
  have hal : selLen id (10 : ℤ) (1 : ℝ) = 10 := by norm_num [selLen, pyInt, Num.truncZ]
  obtain ⟨e, b, he, _⟩ := C60_returns_or_singular_partial (fl := id) (isPD := isPD) (cfg := kedaMax Ex.broad (2 : ℕ))
    (h2 := fun N d => (N : ℝ) ^ (-2 / (d + 4) : ℝ)) (fac := fac)
    (f := fun _ => squaresCost 2 (fun _ => 1) fun _ => 0) (ftol := (0 : ℝ))
    (ρ := ⟨fun _ _ => 0, fun _ _ => 0, fun _ _ _ => 0, fun _ _ _ => 0⟩) realEnv_valid (Ex.broad_valid 2)
    (show 1 ≤ 2 by omega) (by omega) (show 2 ≤ selLen id (10 : ℤ) (1 : ℝ) by rw [hal]; omega) (fun _ _ => field_isNum _)
  have h1 := C104_first (env := realEnv) (f := fun _ => squaresCost 2 (fun _ => 1) fun _ => 0) (ftol := 0)
    (noiseDraws := fun _ _ => 0) realEnv_valid (Ex.broad_valid 2)
    (show 1 ≤ 2 by omega) (by omega) (fun _ _ => field_isNum _) hp rfl
    (by
      intro j hj
      have hj : j < 2 := hj
      interval_cases j <;> norm_num [Ex.broad, kedaMax, Bound.at])
    (show ((2 : ℕ) : ℤ) + 1 < selLen id (10 : ℤ) (1 : ℝ) by rw [hal]; omega)
    (show selLen id (10 : ℤ) (1 : ℝ) ≤ 10 by rw [hal]) rfl he
  have hP : IsProbabilityMeasure (drawsLaw (fun _ => unif01)) := by
    have : ∀ _ : ℕ, IsProbabilityMeasure unif01 := fun _ => ⟨by simp [unif01]⟩
    unfold drawsLaw; infer_instance
  obtain ⟨u, hu⟩ := h1.exists
  obtain ⟨⟨res, s⟩, hr⟩ := hu ⟨u, fun _ _ => 0, fun _ _ _ => 0, fun _ _ _ => 0⟩ rfl rfl
  have hmk := mkEda_ok (UnivariateKEDA_ok he).1
  obtain ⟨s1, s1', hvis, htr, hlog, X, hX, hi, _, hlt⟩ := C110_run (a := fun _ => 1) (o := fun _ => 0) realEnv_valid
    (Ex.broad_valid 2) (show 1 ≤ 2 by omega) (by omega) (show 2 ≤ selLen id (10 : ℤ) (1 : ℝ) by rw [hal]; omega)
    (fun _ _ => field_isNum _) (fun N d h => (hh N d h).le) hfac (by rfl) (t := 1) le_rfl rfl he hr
    (history_max (m := 2) hmk.deadIter hmk.maxIter hr)
  refine ⟨isPD, fac, e, b, _, res, s, s1, s1', he, hr, htr, hlog, X, hi, hX.mono fun z hz => ?_,
    hlt hp hh (fun _ _ => zero_le_one) ⟨0, by norm_num [Ex.broad, kedaMax], one_pos⟩⟩
  obtain ⟨r1, r2, h1, _, h3⟩ := hz
  exact ⟨r1, r2, h1, h3⟩

end Verif
