/-
C113: what `UnivariateKEDA` is expected to cost on a quadratic function whose variables interact.
-/
import Verif.Props.KedaQuadratic
import Verif.Props.Forms

set_option linter.unusedSectionVars false

namespace Verif

open PyCost Spec MeasureTheory ProbabilityTheory

section model
variable {isPD : List (List ℝ) → Bool} {h2 : ℕ → ℕ → ℝ} {fac : List (List ℝ) → List (List ℝ)} {n R : ℕ}
variable {a o : ℕ → ℝ} {w : ℕ → ℕ → ℝ}

/-- **C113** The model: on a quadratic function the individuals that `UniKDE` samples cost on average exactly what the
individuals it was learned from cost, plus `h²` times the weighted sum of their sample variances along the terms. -/
theorem C113_model {b b' : UniKDE ℝ} {g : Gen (List ℝ)} (h : b.learn isPD h2 g = .ok b') (hc : g.cols = n)
    (hh : 0 ≤ h2 g.rows.length n) (hfac : Decomposes n fac) {size : ℤ} (hs : 1 ≤ size) :
    ExpectedCost (drawsLaw (kdeLaw n)) (b'.sample fac size) (formsCost R n a o w) size.toNat
      (Spec.mean (g.rows.map (formsCost R n a o w)) +
        h2 g.rows.length n * ∑ r ∈ Finset.range R, a r * spread n (w r) g.rows) := by
  obtain ⟨hr, _, _, hk⟩ := UniKDE.learn_ok h
  have hn : 1 ≤ n := by
    rcases Nat.eq_zero_or_pos n with h0 | h0
    · simp [UniKDE.learn, hc, h0] at h
    · exact h0
  have hne : g.rows ≠ [] := by intro h0; rw [h0] at hr; simp at hr
  rw [hc] at hk
  set N := g.rows.length with hN
  set c : List (List ℝ) := (List.range n).map (fun i => (List.range n).map (fun j =>
      covEntry g.rows i j * h2 N n)) with hcd
  have hent : ∀ i < n, ∀ j < n, entry c i j = covEntry g.rows i j * h2 N n := by
    intro i hi j hj
    exact entry_map (F := fun i j => covEntry g.rows i j * h2 N n) hi hj
  have hsym : ∀ i < n, ∀ j < n, entry c i j = entry c j i := by
    intro i hi j hj
    rw [hent i hi j hj, hent j hj i hi, covEntry_eq, covEntry_eq, covariance_comm]
  have hform : ∀ x : ℕ → ℝ, ∑ i ∈ Finset.range n, ∑ j ∈ Finset.range n, x i * entry c i j * x j =
      (∑ i ∈ Finset.range n, ∑ j ∈ Finset.range n, x i * covEntry g.rows i j * x j) * h2 N n := by
    intro x
    rw [Finset.sum_mul]
    refine Finset.sum_congr rfl fun i hi => ?_
    rw [Finset.sum_mul]
    refine Finset.sum_congr rfl fun j hj => ?_
    rw [hent i (Finset.mem_range.1 hi) j (Finset.mem_range.1 hj)]; ring
  have hpsd : PSD n (entry c) := by
    intro x
    rw [hform]
    exact mul_nonneg (cov_psd (rows := g.rows) (by omega) n x) hh
  have hgram := (svdRoot_gram_iff hsym (hfac c hsym)).2 hpsd
  set F : ℕ → ℕ → ℝ := fun r k => (∑ j ∈ Finset.range n, w r j * (g.rows.getD k []).getD j 0) - o r with hF
  set q : ℕ → ℕ → ℝ := fun r k => ∑ j ∈ Finset.range n, w r j * entry (fac c) k j with hq
  have hlen : c.length = n := by simp [hcd]
  obtain ⟨m, rfl⟩ : ∃ m : ℕ, size = m := ⟨size.toNat, by omega⟩
  have hN0 : 0 < N := by omega
  have hsec := fun i r => kdeVal_second (n := n) (F r) (q r) hN0 i
  have hint : ∀ i, Integrable (fun z : Draws ℝ => ∑ r ∈ Finset.range R,
      a r * kdeVal n N (F r) (q r) (z i) ^ 2) (drawsLaw (kdeLaw n)) := fun i =>
    integrable_finsetSum _ fun r _ => (hsec i r).1.const_mul _
  refine ⟨fun z => (∑ i ∈ Finset.range m, ∑ r ∈ Finset.range R,
    a r * kdeVal n N (F r) (q r) (z i) ^ 2) / m, Filter.Eventually.of_forall fun z => ?_, ?_, ?_⟩
  · refine ⟨_, by
      unfold UniKDE.sample
      rw [hk]
      dsimp only
      rw [if_neg (by omega)], by simp, ?_⟩
    have hcost : ((List.range (Int.toNat (m : ℤ))).map fun i =>
        Kde.row fac ⟨g.rows, c⟩ (pick g.rows.length (z i c.length)) (z i)).map (formsCost R n a o w) =
        (List.range m).map fun i => ∑ r ∈ Finset.range R, a r * kdeVal n N (F r) (q r) (z i) ^ 2 := by
      rw [List.map_map, Int.toNat_natCast]
      refine List.map_congr_left fun i _ => ?_
      rw [Function.comp_apply, hlen]
      unfold formsCost
      refine Finset.sum_congr rfl fun r _ => ?_
      congr 2
      have e1 : ∀ j ∈ Finset.range n, w r j * (Kde.row fac ⟨g.rows, c⟩ (pick g.rows.length (z i n)) (z i)).getD j 0 =
          w r j * (g.rows.getD (pick N (z i n)) []).getD j 0 +
            ∑ k ∈ Finset.range n, z i k * (w r j * entry (fac c) k j) := by
        intro j hj
        unfold Kde.row
        simp only [hlen]
        rw [List.getD_eq_getElem?_getD, List.getElem?_map, List.getElem?_range (Finset.mem_range.1 hj), Option.map_some,
          Option.getD_some, sum_map_listRange, mul_add, Finset.mul_sum]
        congr 1
        exact Finset.sum_congr rfl fun k _ => by ring
      rw [Finset.sum_congr rfl e1, Finset.sum_add_distrib, Finset.sum_comm (s := Finset.range n) (t := Finset.range n)]
      have e3 : ∀ k ∈ Finset.range n, ∑ j ∈ Finset.range n, z i k * (w r j * entry (fac c) k j) = z i k * q r k := by
        intro k _
        rw [hq]
        simp only
        rw [Finset.mul_sum]
      rw [Finset.sum_congr rfl e3]
      unfold kdeVal
      simp only [hF]
      ring
    rw [hcost]
    unfold Spec.mean
    rw [List.length_map, List.length_range, sum_map_listRange]
  · exact (integrable_finsetSum _ fun i _ => hint i).div_const _
  · rw [integral_div, integral_finsetSum _ fun i _ => hint i]
    have hone : ∀ i, ∫ z : Draws ℝ, ∑ r ∈ Finset.range R, a r * kdeVal n N (F r) (q r) (z i) ^ 2
        ∂drawsLaw (kdeLaw n) = ∑ r ∈ Finset.range R, a r * ((∑ k ∈ Finset.range N, F r k * F r k) / N +
          ∑ k ∈ Finset.range n, q r k ^ 2) := by
      intro i
      rw [integral_finsetSum _ fun r _ => (hsec i r).1.const_mul _]
      exact Finset.sum_congr rfl fun r _ => by rw [integral_const_mul, (hsec i r).2]
    simp only [hone, Finset.sum_const, Finset.card_range, nsmul_eq_mul]
    have hm0 : (m : ℝ) ≠ 0 := by exact_mod_cast (by omega : m ≠ 0)
    rw [mul_div_cancel_left₀ _ hm0]
    simp only [mul_add]
    rw [Finset.sum_add_distrib]
    congr 1
    · rw [mean_rows_range ([] : List ℝ), ← hN]
      unfold formsCost
      rw [Finset.sum_comm, Finset.sum_div]
      refine Finset.sum_congr rfl fun r _ => ?_
      rw [mul_div_assoc', Finset.mul_sum]
      congr 1
      exact Finset.sum_congr rfl fun k _ => by simp only [hF]; ring
    · rw [Finset.mul_sum]
      refine Finset.sum_congr rfl fun r _ => ?_
      have e2 : ∀ k ∈ Finset.range n, q r k ^ 2 = ∑ i ∈ Finset.range n, ∑ j ∈ Finset.range n,
          w r i * (entry (fac c) k i * entry (fac c) k j) * w r j := by
        intro k _
        rw [hq]
        simp only
        rw [pow_two, Finset.sum_mul_sum]
        exact Finset.sum_congr rfl fun i _ => Finset.sum_congr rfl fun j _ => by ring
      have e4 : ∑ k ∈ Finset.range n, q r k ^ 2 = spread n (w r) g.rows * h2 N n := by
        rw [spread_cov hne hn, ← hform, Finset.sum_congr rfl e2, Finset.sum_comm]
        refine Finset.sum_congr rfl fun i hi => ?_
        rw [Finset.sum_comm]
        refine Finset.sum_congr rfl fun j hj => ?_
        rw [← Finset.sum_mul, ← Finset.mul_sum, hgram i (Finset.mem_range.1 hi) j (Finset.mem_range.1 hj)]
      rw [e4]
      ring

end model

section run
variable {C : Type} [PyCost C] {env : Env C} {f : ℕ → List ℝ → C} {ftol : C} {ρ : Rand (Draws ℝ)}
variable {fl : ℝ → ℝ} {isPD : List (List ℝ) → Bool} {h2 : ℕ → ℕ → ℝ}
variable {fac : List (List ℝ) → List (List ℝ)} {cfg : KedaCfg ℝ}
variable {e : Eda (List ℝ) (UniKDE ℝ) (Draws ℝ)} {b : UniKDE ℝ} {R : ℕ} {a o : ℕ → ℝ} {w : ℕ → ℕ → ℝ}

/-- **C113** `UnivariateKEDA` without white noise: given the generations before, a quadratic function has in the last
generation on average exactly the value that it has in the `N` individuals selected from the generation before, plus `h²`
times the weighted sum of their sample variances along its terms. -/
theorem C113_run [LawfulCost C] [UniformCost C] (hv : env.Valid) {m : ℕ}
    (hval : UniformValid env.cpu fl cfg.base cfg.lower cfg.upper m) (hn : 1 ≤ cfg.base.nVars) (hm : 2 ≤ m)
    (hsel : 2 ≤ selLen fl cfg.base.sizeGen cfg.base.alpha)
    (hnum : ∀ k r, IsNum (f k r)) (hh : ∀ N d, 0 < N → 0 ≤ h2 N d)
    (hfac : Decomposes cfg.base.nVars fac) (hnz0 : cfg.base.noiseAttr = 0) {t : ℕ} (ht : 1 ≤ t)
    (hmax : cfg.base.maxIter = t + 1) (he : UnivariateKEDA fl isPD h2 fac cfg = .ok (e, b))
    {res : EdaResult (List ℝ) C} {s : St (List ℝ) C (UniKDE ℝ)} (hrun : minimize env e f ftol b ρ = .ok (res, s))
    (hlen : t < res.history.length) :
    ∃ s1 s1', Visited env e f ftol b ρ t s1 ∧ truncation env e s1 = .ok s1' ∧ s1.log = s.log.take t ∧
      ∃ X : Draws ℝ → ℝ, (∀ᵐ z ∂drawsLaw (kdeLaw cfg.base.nVars), ∃ res' s', minimize env e f ftol b
          { ρ with sample := Function.update ρ.sample t z } = .ok (res', s') ∧ s'.log.take t = s.log.take t ∧
            X z = Spec.mean (((s'.log.getD t []).map Prod.fst).map (formsCost R cfg.base.nVars a o w))) ∧
        Integrable X (drawsLaw (kdeLaw cfg.base.nVars)) ∧
        ∫ z, X z ∂drawsLaw (kdeLaw cfg.base.nVars) =
          Spec.mean (s1'.gen.rows.map (formsCost R cfg.base.nVars a o w)) +
            h2 s1'.gen.rows.length cfg.base.nVars *
              ∑ r ∈ Finset.range R, a r * spread cfg.base.nVars (w r) s1'.gen.rows := by
  obtain ⟨s1, s1', pm', hvis, htr, hc, hlog, hlearn, hlast⟩ := keda_last_gen hv hval hn hm hsel hnum hnz0 ht hmax he hrun
    hlen
  have hr := (UniKDE.learn_ok hlearn).1
  obtain ⟨X, hX, hi, hE⟩ := C113_model (R := R) (a := a) (o := o) (w := w) (fac := fac) hlearn hc (hh _ _ (by omega)) hfac
    (size := cfg.base.sizeGen) (by have := hval.size; omega)
  refine ⟨s1, s1', hvis, htr, hlog, X, hX.mono fun z hz => ?_, hi, hE⟩
  obtain ⟨out, ho, _, hx⟩ := hz
  obtain ⟨res', s', h1, h3, h4⟩ := hlast z out ho
  exact ⟨res', s', h1, h3, by rw [h4, hx]⟩

end run

/-- C113 in the valley `(x - y)²`, whatever cost function is minimised: there is a run of two generations, and given the first
one the second is expected to be as far from the valley as what was selected from the first, but for the bandwidth. -/
example (f : ℕ → List ℝ → ℝ) : ∃ isPD fac e b ρ res s s1 s1',
    UnivariateKEDA id isPD (fun N d => (N : ℝ) ^ (-2 / (d + 4) : ℝ)) fac (kedaMax Ex.broad 2) = .ok (e, b) ∧
    minimize realEnv e f 0 b ρ = .ok (res, s) ∧ truncation realEnv e s1 = .ok s1' ∧ s1.log = s.log.take 1 ∧
    ∃ X : Draws ℝ → ℝ, (∀ᵐ z ∂drawsLaw (kdeLaw 2), ∃ res' s',
        minimize realEnv e f 0 b { ρ with sample := Function.update ρ.sample 1 z } = .ok (res', s') ∧
        X z = Spec.mean (((s'.log.getD 1 []).map Prod.fst).map
          (formsCost 1 2 1 0 fun _ j => if j = 0 then 1 else -1))) ∧
      Integrable X (drawsLaw (kdeLaw 2)) ∧
      ∫ z, X z ∂drawsLaw (kdeLaw 2) =
        Spec.mean (s1'.gen.rows.map (formsCost 1 2 1 0 fun _ j => if j = 0 then 1 else -1)) +
          (s1'.gen.rows.length : ℝ) ^ (-2 / ((2 : ℕ) + 4) : ℝ) *
            spread 2 (fun j => if j = 0 then 1 else -1) s1'.gen.rows := by
  obtain ⟨isPD, hp⟩ := posDefTest_exists (K := ℝ) 2
  obtain ⟨fac, hfac⟩ : ∃ fac, Decomposes 2 fac := svdRoots_symmetric 2
  have hh : ∀ N d : ℕ, 0 < N → 0 < (N : ℝ) ^ (-2 / (d + 4) : ℝ) := fun N d h =>
    Real.rpow_pos_of_pos (by exact_mod_cast h) _
  have hal : selLen id (10 : ℤ) (1 : ℝ) = 10 := by norm_num [selLen, pyInt, Num.truncZ]
  obtain ⟨e, b, he, _⟩ := C60_returns_or_singular_partial (fl := id) (isPD := isPD) (cfg := kedaMax Ex.broad (2 : ℕ))
    (h2 := fun N d => (N : ℝ) ^ (-2 / (d + 4) : ℝ)) (fac := fac)
    (f := f) (ftol := (0 : ℝ))
    (ρ := ⟨fun _ _ => 0, fun _ _ => 0, fun _ _ _ => 0, fun _ _ _ => 0⟩) realEnv_valid (Ex.broad_valid 2)
    (show 1 ≤ 2 by omega) (by omega) (show 2 ≤ selLen id (10 : ℤ) (1 : ℝ) by rw [hal]; omega) (fun _ _ => field_isNum _)
  have h1 := C104_first (env := realEnv) (f := f) (ftol := 0)
    (noiseDraws := fun _ _ => 0) realEnv_valid (Ex.broad_valid 2)
    (show 1 ≤ 2 by omega) (by omega) (fun _ _ => field_isNum _) hp rfl
    (by
      intro j hj
      have hj : j < 2 := hj
      interval_cases j <;> norm_num [Ex.broad, kedaMax, Bound.at])
    (show ((2 : ℕ) : ℤ) + 1 < selLen id (10 : ℤ) (1 : ℝ) by rw [hal]; omega)
    (show selLen id (10 : ℤ) (1 : ℝ) ≤ 10 by rw [hal]) rfl he
  have hP : IsProbabilityMeasure (drawsLaw (fun _ => unif01)) := by
    have : ∀ _ : ℕ, IsProbabilityMeasure unif01 := fun _ => ⟨by simp [unif01]⟩
    unfold drawsLaw; infer_instance
  obtain ⟨u, hu⟩ := h1.exists
  obtain ⟨⟨res, s⟩, hr⟩ := hu ⟨u, fun _ _ => 0, fun _ _ _ => 0, fun _ _ _ => 0⟩ rfl rfl
  have hmk := mkEda_ok (UnivariateKEDA_ok he).1
  obtain ⟨s1, s1', _, htr, hlog, X, hX, hi, hE⟩ := C113_run (R := 1) (a := 1) (o := 0)
    (w := fun _ j => if j = 0 then 1 else -1) realEnv_valid
    (Ex.broad_valid 2) (show 1 ≤ 2 by omega) (by omega) (show 2 ≤ selLen id (10 : ℤ) (1 : ℝ) by rw [hal]; omega)
    (fun _ _ => field_isNum _) (fun N d h => (hh N d h).le) hfac (by rfl) (t := 1) le_rfl rfl he hr
    (history_max (m := 2) hmk.deadIter hmk.maxIter hr)
  refine ⟨isPD, fac, e, b, _, res, s, s1, s1', he, hr, htr, hlog, X, hX.mono fun z hz => ?_, hi, ?_⟩
  · obtain ⟨r1, r2, h1, _, h3⟩ := hz
    exact ⟨r1, r2, h1, h3⟩
  · rw [Finset.sum_range_one, Pi.one_apply, one_mul] at hE
    exact hE

end Verif
