/-
C106: the kernel model of `UnivariateKEDA` spreads the individuals: what a generation is expected to vary.
-/
import Verif.Lemmas.KdeSpread

set_option linter.unusedSectionVars false

namespace Verif

open PyCost Spec MeasureTheory ProbabilityTheory

namespace Spec

/-- The values of the linear function with the coefficients `w` at the individuals. -/
noncomputable def along (n : ℕ) (w : ℕ → ℝ) (rows : List (List ℝ)) : List ℝ :=
  rows.map fun r => ∑ j ∈ Finset.range n, w j * r.getD j 0

/-- The sample variance (divided by `N - 1`) of the individuals in the direction `w`. -/
noncomputable def spread (n : ℕ) (w : ℕ → ℝ) (rows : List (List ℝ)) : ℝ :=
  covariance (along n w rows) (along n w rows)

end Spec

section model
variable {isPD : List (List ℝ) → Bool} {h2 : ℕ → ℕ → ℝ} {fac : List (List ℝ) → List (List ℝ)} {n : ℕ}

theorem spread_cov {rows : List (List ℝ)} (hne : rows ≠ []) (hn : 1 ≤ n) (w : ℕ → ℝ) :
    spread n w rows = ∑ i ∈ Finset.range n, ∑ j ∈ Finset.range n, w i * covEntry rows i j * w j := by
  rw [← covEntry_affine (B := fun i _ => w i) (v := fun _ => 0) hne (show 0 < n by omega) (show 0 < n by omega),
    covEntry_eq]
  have : col (rows.map (affineCoord n (fun i _ => w i) fun _ => 0)) 0 = along n w rows := by
    unfold col along
    rw [List.map_map]
    refine List.map_congr_left fun r _ => ?_
    simp only [Function.comp]
    rw [affineCoord_getD _ (by omega), zero_add]
    exact Finset.sum_congr rfl fun i _ => mul_comm _ _
  rw [this, spread]

theorem along_range (w : ℕ → ℝ) (rows : List (List ℝ)) : along n w rows =
    (List.range rows.length).map fun k => ∑ j ∈ Finset.range n, w j * (rows.getD k []).getD j 0 := by
  apply List.ext_getElem (by simp [along])
  intro i h1 h3
  simp only [along, List.length_map] at h1
  simp [along, h1]

/-- **C106** The model: in every direction the expected sample variance of the individuals that `UniKDE` samples is
`(N - 1) / N + h²` times the sample variance of the `N` individuals it was learned from, whatever the number of
sampled individuals is. -/
theorem C106_model {b b' : UniKDE ℝ} {g : Gen (List ℝ)} (h : b.learn isPD h2 g = .ok b') (hc : g.cols = n)
    (hh : 0 ≤ h2 g.rows.length n) (hfac : Decomposes n fac) {size : ℤ} (hs : 2 ≤ size) (w : ℕ → ℝ) :
    ∃ X : Draws ℝ → ℝ, (∀ z, ∃ out, b'.sample fac size z = .ok out ∧ out.rows.length = size.toNat ∧
        X z = spread n w out.rows) ∧
      Integrable X (drawsLaw (kdeLaw n)) ∧
      ∫ z, X z ∂drawsLaw (kdeLaw n) =
        (((g.rows.length : ℝ) - 1) / g.rows.length + h2 g.rows.length n) * spread n w g.rows := by
  obtain ⟨hr, _, _, hk⟩ := UniKDE.learn_ok h
  have hn : 1 ≤ n := by
    rcases Nat.eq_zero_or_pos n with h0 | h0
    · simp [UniKDE.learn, hc, h0] at h
    · exact h0
  have hne : g.rows ≠ [] := by intro h0; rw [h0] at hr; simp at hr
  rw [hc] at hk
  set N := g.rows.length with hN
  set c : List (List ℝ) := (List.range n).map (fun i => (List.range n).map (fun j =>
      covEntry g.rows i j * h2 N n)) with hcd
  have hent : ∀ i < n, ∀ j < n, entry c i j = covEntry g.rows i j * h2 N n := by
    intro i hi j hj
    exact entry_map (F := fun i j => covEntry g.rows i j * h2 N n) hi hj
  have hsym : ∀ i < n, ∀ j < n, entry c i j = entry c j i := by
    intro i hi j hj
    rw [hent i hi j hj, hent j hj i hi, covEntry_eq, covEntry_eq, covariance_comm]
  have hform : ∀ x : ℕ → ℝ, ∑ i ∈ Finset.range n, ∑ j ∈ Finset.range n, x i * entry c i j * x j =
      (∑ i ∈ Finset.range n, ∑ j ∈ Finset.range n, x i * covEntry g.rows i j * x j) * h2 N n := by
    intro x
    rw [Finset.sum_mul]
    refine Finset.sum_congr rfl fun i hi => ?_
    rw [Finset.sum_mul]
    refine Finset.sum_congr rfl fun j hj => ?_
    rw [hent i (Finset.mem_range.1 hi) j (Finset.mem_range.1 hj)]; ring
  have hpsd : PSD n (entry c) := by
    intro x
    rw [hform]
    exact mul_nonneg (cov_psd (rows := g.rows) (by omega) n x) hh
  have hgram := (svdRoot_gram_iff hsym (hfac c hsym)).2 hpsd
  set F : ℕ → ℝ := fun k => ∑ j ∈ Finset.range n, w j * (g.rows.getD k []).getD j 0 with hF
  set a : ℕ → ℝ := fun k => ∑ j ∈ Finset.range n, w j * entry (fac c) k j with ha
  have hlen : c.length = n := by simp [hcd]
  obtain ⟨m, rfl⟩ : ∃ m : ℕ, size = m := ⟨size.toNat, by omega⟩
  obtain ⟨hi, hE⟩ := kdeVal_spread (n := n) F a (show 0 < N by omega) (m := m) (by omega)
  refine ⟨_, fun z => ⟨_, by
    unfold UniKDE.sample
    rw [hk]
    dsimp only
    rw [if_neg (by omega)], by simp, ?_⟩, hi, ?_⟩
  · unfold spread
    have : along n w ((List.range (Int.toNat (m : ℤ))).map fun i =>
        Kde.row fac ⟨g.rows, c⟩ (pick g.rows.length (z i c.length)) (z i)) =
        (List.range m).map fun i => kdeVal n N F a (z i) := by
      unfold along
      rw [List.map_map, Int.toNat_natCast]
      refine List.map_congr_left fun i _ => ?_
      simp only [Function.comp, hlen]
      unfold kdeVal
      rw [hF, ha]
      simp only
      have e1 : ∀ j ∈ Finset.range n, w j * (Kde.row fac ⟨g.rows, c⟩ (pick g.rows.length (z i n)) (z i)).getD j 0 =
          w j * (g.rows.getD (pick N (z i n)) []).getD j 0 +
            ∑ k ∈ Finset.range n, z i k * (w j * entry (fac c) k j) := by
        intro j hj
        unfold Kde.row
        simp only [hlen]
        rw [List.getD_eq_getElem?_getD, List.getElem?_map, List.getElem?_range (Finset.mem_range.1 hj), Option.map_some,
          Option.getD_some, sum_map_listRange, mul_add, Finset.mul_sum]
        congr 1
        exact Finset.sum_congr rfl fun k _ => by ring
      rw [Finset.sum_congr rfl e1, Finset.sum_add_distrib, Finset.sum_comm]
      congr 1
      exact Finset.sum_congr rfl fun k _ => by rw [Finset.mul_sum]
    rw [this]
  · rw [hE, add_mul]
    have hN0 : (N : ℝ) ≠ 0 := by exact_mod_cast (by omega : N ≠ 0)
    have hN1 : (N : ℝ) - 1 ≠ 0 := by
      have : (2 : ℝ) ≤ N := by exact_mod_cast hr
      linarith
    congr 1
    · have hl : along n w g.rows = (List.range N).map F := along_range w g.rows
      rw [spread, hl, covariance_range _ _ (show N ≠ 0 by omega)]
      field_simp
    · rw [spread_cov hne hn, mul_comm, ← hform]
      have e2 : ∀ k ∈ Finset.range n, a k ^ 2 = ∑ i ∈ Finset.range n, ∑ j ∈ Finset.range n,
          w i * (entry (fac c) k i * entry (fac c) k j) * w j := by
        intro k _
        rw [ha]
        simp only
        rw [pow_two, Finset.sum_mul_sum]
        exact Finset.sum_congr rfl fun i _ => Finset.sum_congr rfl fun j _ => by ring
      rw [Finset.sum_congr rfl e2, Finset.sum_comm]
      refine Finset.sum_congr rfl fun i hi => ?_
      rw [Finset.sum_comm]
      refine Finset.sum_congr rfl fun j hj => ?_
      rw [← Finset.sum_mul, ← Finset.mul_sum, hgram i (Finset.mem_range.1 hi) j (Finset.mem_range.1 hj)]

/-- **C106** With the bandwidth of Scott, the default of scipy, the factor is greater than 1. -/
theorem C106_scott {N : ℕ} (hN : 2 ≤ N) (d : ℕ) : 1 < ((N : ℝ) - 1) / N + (N : ℝ) ^ (-2 / (d + 4) : ℝ) := by
  have h1 : (1 : ℝ) < N := by exact_mod_cast (by omega : 1 < N)
  have h2 : (N : ℝ) ^ (-1 : ℝ) < (N : ℝ) ^ (-2 / (d + 4) : ℝ) := by
    refine Real.rpow_lt_rpow_of_exponent_lt h1 ?_
    have : (0 : ℝ) ≤ d := Nat.cast_nonneg d
    rw [lt_div_iff₀ (by positivity)]
    linarith
  rw [Real.rpow_neg_one] at h2
  have h3 : ((N : ℝ) - 1) / N = 1 - (N : ℝ)⁻¹ := by
    have : (N : ℝ) ≠ 0 := by positivity
    field_simp
  rw [h3]
  linarith

end model

section run
variable {C : Type} [PyCost C] {env : Env C} {f : ℕ → List ℝ → C} {ftol : C} {ρ : Rand (Draws ℝ)}
variable {fl : ℝ → ℝ} {isPD : List (List ℝ) → Bool} {h2 : ℕ → ℕ → ℝ}
variable {fac : List (List ℝ) → List (List ℝ)} {cfg : KedaCfg ℝ}
variable {e : Eda (List ℝ) (UniKDE ℝ) (Draws ℝ)} {b : UniKDE ℝ}

/-- The last generation of a run, as a function of its draws. -/
theorem keda_last_gen [LawfulCost C] [UniformCost C] (hv : env.Valid) {m : ℕ}
    (hval : UniformValid env.cpu fl cfg.base cfg.lower cfg.upper m) (hn : 1 ≤ cfg.base.nVars) (hm : 2 ≤ m)
    (hsel : 2 ≤ selLen fl cfg.base.sizeGen cfg.base.alpha)
    (hnum : ∀ k r, IsNum (f k r)) (hnz0 : cfg.base.noiseAttr = 0) {t : ℕ} (ht : 1 ≤ t)
    (hmax : cfg.base.maxIter = t + 1) (he : UnivariateKEDA fl isPD h2 fac cfg = .ok (e, b))
    {res : EdaResult (List ℝ) C} {s : St (List ℝ) C (UniKDE ℝ)} (hrun : minimize env e f ftol b ρ = .ok (res, s))
    (hlen : t < res.history.length) :
    ∃ s1 s1' pm', Visited env e f ftol b ρ t s1 ∧ truncation env e s1 = .ok s1' ∧ s1'.gen.cols = cfg.base.nVars ∧
      s1.log = s.log.take t ∧ s1.pm.learn isPD h2 s1'.gen = .ok pm' ∧
      ∀ z out, pm'.sample fac cfg.base.sizeGen z = .ok out → ∃ res' s', minimize env e f ftol b
        { ρ with sample := Function.update ρ.sample t z } = .ok (res', s') ∧ s'.log.take t = s.log.take t ∧
          (s'.log.getD t []).map Prod.fst = out.rows := by
  have hmk := mkEda_ok (UnivariateKEDA_ok he).1
  obtain ⟨s1, s2, fl2, noise, hvis, hnz, hst, hlp, _⟩ := minimize_pass_log hv hrun ht hlen
  obtain ⟨t1, noisy1, ev1, _, _, _, hs⟩ := step_ok hst
  have hl1 := visited_log_len hvis
  have hu := hs.update
  rw [hmk.updatePm] at hu
  have hclean : noisy1 = t1.gen := mkNoise_clean hmk hnz0 hnz hs.noise
  have hu : s1.pm.learn isPD h2 noisy1 = .ok s2.pm := hu
  have hlog1 : s1.log = s.log.take t := by
    obtain ⟨l, hl⟩ := hlp
    rw [← hl, hs.log, List.append_assoc, ← hl1, List.take_left]
  refine ⟨s1, t1, s2.pm, hvis, hs.trunc, by rw [(truncation_shape hs.trunc).2.1, keda_cols he hvis], hlog1,
    by rw [← hclean]; exact hu, fun z out hout => ?_⟩
  have hagree : ∀ u < t, Function.update ρ.sample t z u = ρ.sample u := fun u hu => Function.update_of_ne (by omega) _ _
  obtain ⟨s0, noise', hst0, hnz0, hl, _⟩ := minimize_ok hrun
  rw [hnz] at hnz0
  obtain rfl := Except.ok.inj hnz0
  have hpasses : ((e.maxIter - 1).toNat) = t := by rw [hmk.maxIter, hmax]; omega
  rw [hpasses] at hl
  obtain ⟨res', s', hr'⟩ := keda_returns (f := f) (ftol := ftol)
    (ρ := { ρ with sample := Function.update ρ.sample t z }) hv hval hn hm hsel hnum he (by
    intro t' s3 noise' s4 noisy hvis' ht' hnz2 htr hno
    have hnz2 : e.mkNoise ρ.noise = .ok noise' := hnz2
    rw [hnz] at hnz2
    obtain rfl := Except.ok.inj hnz2
    rw [hmk.maxIter, hmax] at ht'
    have hvt : Visited env e f ftol b ρ t' s3 :=
      visited_agree hvis' rfl rfl rfl fun u hu => (hagree u (by omega)).symm
    obtain ⟨s5, fl5, hst5, _⟩ := loop_pass_ok noise hnz t 1 s0 _ (.first hst0) hl t' s3 hvt (visited_pos hvt) (by omega)
    obtain ⟨t5, noisy5, _, _, _, _, hs5⟩ := step_ok hst5
    have e1 := hs5.trunc
    rw [htr] at e1
    obtain rfl := Except.ok.inj e1
    have e2 := hs5.noise
    rw [hno] at e2
    obtain rfl := Except.ok.inj e2
    have hu := hs5.update
    rw [hmk.updatePm] at hu
    rw [(truncation_fields htr).2.2.1]
    exact ⟨_, hu⟩)
  refine ⟨res', s', hr', ?_⟩
  obtain ⟨s0', noise', hst0', hnz0', hl', _⟩ := minimize_ok hr'
  have hnz0' : e.mkNoise ρ.noise = .ok noise' := hnz0'
  rw [hnz] at hnz0'
  obtain rfl := Except.ok.inj hnz0'
  rw [hpasses] at hl'
  have hvis2 : Visited env e f ftol b { ρ with sample := Function.update ρ.sample t z } t s1 :=
    visited_agree hvis rfl rfl rfl hagree
  obtain ⟨s6, fl6, hst6, hpre⟩ := loop_pass_ok (ρ := { ρ with sample := Function.update ρ.sample t z })
    noise hnz t 1 s0' _ (.first hst0') hl' t s1 hvis2 ht (by omega)
  obtain ⟨t6, noisy6, ev6, _, _, _, hs6⟩ := step_ok hst6
  have e1 := hs6.trunc
  rw [hs.trunc] at e1
  obtain rfl := Except.ok.inj e1
  have e2 := hs6.noise
  rw [hs.noise] at e2
  obtain rfl := Except.ok.inj e2
  have hpm : s6.pm = s2.pm := by
    have h1 := hs6.update
    rw [show e.updatePm s1.pm noisy1 t1.elite (ρ.learn t) = .ok s2.pm from hs.update] at h1
    exact (Except.ok.inj h1).symm
  have hsm := hs6.sample
  rw [hmk.sample, hpm] at hsm
  have hsm : s2.pm.sample fac cfg.base.sizeGen z = .ok s6.gen := by
    have hsm : s2.pm.sample fac cfg.base.sizeGen (Function.update ρ.sample t z t) = .ok s6.gen := hsm
    rwa [Function.update_self] at hsm
  rw [hout] at hsm
  obtain rfl := Except.ok.inj hsm
  have hcalls : ev6.calls.map Prod.fst = s6.gen.rows := by
    rw [(check_calls hv hs6.check).2, List.map_fst_zip]
    unfold callRows; simp
  obtain ⟨l, hl⟩ := hpre
  constructor
  · rw [← hl, hs6.log, List.append_assoc, ← hlog1, ← hl1, List.take_left]
  · rw [← hcalls, ← hl, hs6.log, List.append_assoc, List.getD_eq_getElem?_getD, ← hl1,
      List.getElem?_append_right le_rfl]
    simp

/-- **C106** A run: given the generations before, the expected sample variance of the last generation in every direction
is `(N - 1) / N + h²` times that of the `N` individuals selected from the generation before (see C09). -/
theorem C106_run [LawfulCost C] [UniformCost C] (hv : env.Valid) {m : ℕ}
    (hval : UniformValid env.cpu fl cfg.base cfg.lower cfg.upper m) (hn : 1 ≤ cfg.base.nVars) (hm : 2 ≤ m)
    (hsel : 2 ≤ selLen fl cfg.base.sizeGen cfg.base.alpha)
    (hnum : ∀ k r, IsNum (f k r)) (hh : ∀ N d, 0 < N → 0 ≤ h2 N d)
    (hfac : Decomposes cfg.base.nVars fac) (hnz0 : cfg.base.noiseAttr = 0) {t : ℕ} (ht : 1 ≤ t)
    (hmax : cfg.base.maxIter = t + 1) (he : UnivariateKEDA fl isPD h2 fac cfg = .ok (e, b))
    {res : EdaResult (List ℝ) C} {s : St (List ℝ) C (UniKDE ℝ)} (hrun : minimize env e f ftol b ρ = .ok (res, s))
    (hlen : t < res.history.length) :
    ∃ s1 s1', Visited env e f ftol b ρ t s1 ∧ truncation env e s1 = .ok s1' ∧
      ∀ w, ∃ X : Draws ℝ → ℝ, (∀ z, ∃ res' s', minimize env e f ftol b
          { ρ with sample := Function.update ρ.sample t z } = .ok (res', s') ∧ s'.log.take t = s.log.take t ∧
            X z = spread cfg.base.nVars w ((s'.log.getD t []).map Prod.fst)) ∧
        Integrable X (drawsLaw (kdeLaw cfg.base.nVars)) ∧
        ∫ z, X z ∂drawsLaw (kdeLaw cfg.base.nVars) =
          (((s1'.gen.rows.length : ℝ) - 1) / s1'.gen.rows.length + h2 s1'.gen.rows.length cfg.base.nVars) *
            spread cfg.base.nVars w s1'.gen.rows := by
  obtain ⟨s1, s1', pm', hvis, htr, hc, _, hlearn, hlast⟩ := keda_last_gen hv hval hn hm hsel hnum hnz0 ht hmax he hrun
    hlen
  have hr := (UniKDE.learn_ok hlearn).1
  refine ⟨s1, s1', hvis, htr, fun w => ?_⟩
  obtain ⟨X, hX, hi, hE⟩ := C106_model (fac := fac) hlearn hc (hh _ _ (by omega)) hfac (size := cfg.base.sizeGen)
    (by have := hval.size; omega) w
  refine ⟨X, fun z => ?_, hi, hE⟩
  obtain ⟨out, ho, _, hx⟩ := hX z
  obtain ⟨res', s', h1, h3, h4⟩ := hlast z out ho
  exact ⟨res', s', h1, h3, by rw [h4, hx]⟩

theorem spread_perm {n : ℕ} {w : ℕ → ℝ} {l l' : List (List ℝ)} (h : l.Perm l') : spread n w l = spread n w l' := by
  have hp : (along n w l).Perm (along n w l') := h.map _
  have hmean : mean (along n w l) = mean (along n w l') := by unfold mean; rw [hp.sum_eq, hp.length_eq]
  unfold spread Spec.covariance
  rw [List.zipWith_self, List.zipWith_self, hmean, hp.length_eq]
  rw [(hp.map _).sum_eq]

/-- After the first iteration, without elite and with everything selected, the selection is the whole generation. -/
theorem select_all (hv : env.Valid) [LawfulCost C] {R σ Ω : Type} {e : Eda R σ Ω} {f : ℕ → R → C} {b : σ} {ρ : Rand Ω}
    (he : e.eliteLen = 0) {t : ℕ} (ht : 2 ≤ t) {s1 s1' : St R C σ} (hvis : Visited env e f ftol b ρ t s1)
    (htr : truncation env e s1 = .ok s1') (hall : (s1.gen.rows.length : ℤ) ≤ e.truncLen) :
    s1'.gen.rows.Perm s1.gen.rows ∧ (s1.log.getD (t - 1) []).map Prod.fst = s1.gen.rows := by
  have ha := visited_aligned hv hvis
  cases hvis with
  | first _ => omega
  | @next t' s0 _ noise h0 hn hst =>
    obtain ⟨t0, noisy, ev, _, _, _, hs⟩ := step_ok hst
    obtain ⟨_, _, _, _, _, hel, _⟩ := truncation_ok hv (visited_aligned hv h0) hs.trunc
    have hel : s1.elite.rows = [] := by
      rw [hs.elite, hel, he]; simp [sliceLen]
    obtain ⟨P, p1, _, p3, _⟩ := truncation_ok hv ha htr
    have hpl := p1.length_eq
    rw [poolOf_length ha, hel, List.length_nil, add_zero] at hpl
    constructor
    · rw [p3, List.take_of_length_le (by unfold sliceLen; rw [if_pos (by omega)]; omega)]
      have := p1.map Prod.fst
      rwa [poolOf_eq ha, hel, List.zip_nil_left, List.append_nil, List.map_fst_zip (by rw [ha.1])] at this
    · have hl := visited_log_len h0
      have hcalls : ev.calls.map Prod.fst = s1.gen.rows := by
        rw [(check_calls hv hs.check).2, List.map_fst_zip]
        unfold callRows; simp
      rw [← hcalls, hs.log, List.getD_eq_getElem?_getD, Nat.add_sub_cancel, ← hl, List.getElem?_append_right le_rfl]
      simp

/-- **C106** Without selection (`alpha = 1`, no elite) and with the bandwidth of Scott, from the third generation on every
generation is expected to be strictly wider than the one before, in every direction and for every cost function. -/
theorem C106_grows [LawfulCost C] [UniformCost C] (hv : env.Valid) {m : ℕ}
    (hval : UniformValid env.cpu fl cfg.base cfg.lower cfg.upper m) (hn : 1 ≤ cfg.base.nVars) (hm : 2 ≤ m)
    (hall : selLen fl cfg.base.sizeGen cfg.base.alpha = cfg.base.sizeGen)
    (hel : selLen fl cfg.base.sizeGen cfg.base.eliteFactor = 0)
    (hnum : ∀ k r, IsNum (f k r)) (hp : PosDefTest cfg.base.nVars isPD)
    (hfac : Decomposes cfg.base.nVars fac) (hnz0 : cfg.base.noiseAttr = 0) {t : ℕ} (ht : 2 ≤ t)
    (hmax : cfg.base.maxIter = t + 1)
    (he : UnivariateKEDA fl isPD (fun N d => (N : ℝ) ^ (-2 / (d + 4) : ℝ)) fac cfg = .ok (e, b))
    {res : EdaResult (List ℝ) C} {s : St (List ℝ) C (UniKDE ℝ)} (hrun : minimize env e f ftol b ρ = .ok (res, s))
    (hlen : t < res.history.length) {w : ℕ → ℝ} (hw : ∃ j < cfg.base.nVars, w j ≠ 0) :
    ∃ X : Draws ℝ → ℝ, (∀ z, ∃ res' s', minimize env e f ftol b
        { ρ with sample := Function.update ρ.sample t z } = .ok (res', s') ∧ s'.log.take t = s.log.take t ∧
          X z = spread cfg.base.nVars w ((s'.log.getD t []).map Prod.fst)) ∧
      Integrable X (drawsLaw (kdeLaw cfg.base.nVars)) ∧
      ∫ z, X z ∂drawsLaw (kdeLaw cfg.base.nVars) =
        (((cfg.base.sizeGen : ℝ) - 1) / cfg.base.sizeGen +
          (cfg.base.sizeGen : ℝ) ^ (-2 / (cfg.base.nVars + 4) : ℝ)) *
          spread cfg.base.nVars w ((s.log.getD (t - 1) []).map Prod.fst) ∧
      spread cfg.base.nVars w ((s.log.getD (t - 1) []).map Prod.fst) <
        ∫ z, X z ∂drawsLaw (kdeLaw cfg.base.nVars) := by
  have hmk := mkEda_ok (UnivariateKEDA_ok he).1
  have hsz := hval.size
  obtain ⟨s1, s1', pm', hvis, htr, hc, hlog, hlearn, hlast⟩ := keda_last_gen hv hval hn hm (by omega) hnum hnz0
    (by omega) hmax he hrun hlen
  obtain ⟨hr, _, hpd, _⟩ := UniKDE.learn_ok hlearn
  have hgen : s1.gen.rows.length = cfg.base.sizeGen.toNat := by
    cases hvis with
    | first _ => omega
    | next h0 _ hst =>
      obtain ⟨_, _, _, _, _, _, hs⟩ := step_ok hst
      have h1 := hs.update
      rw [hmk.updatePm] at h1
      obtain ⟨_, _, _, hk⟩ := UniKDE.learn_ok h1
      have h3 := hs.sample
      rw [hmk.sample] at h3
      simp only [UniKDE.sample, hk] at h3
      split at h3
      · cases h3
      rw [← Except.ok.inj h3]
      simp
  obtain ⟨hperm, hrows⟩ := select_all hv (by rw [hmk.eliteLen, hel]) ht hvis htr (by rw [hmk.truncLen, hall, hgen]; omega)
  have hrows : (s.log.getD (t - 1) []).map Prod.fst = s1.gen.rows := by
    rw [← hrows, hlog, List.getD_eq_getElem?_getD, List.getD_eq_getElem?_getD, List.getElem?_take_of_lt (by omega)]
  have hN : s1'.gen.rows.length = cfg.base.sizeGen.toNat := by rw [hperm.length_eq, hgen]
  obtain ⟨X, hX, hi, hE⟩ := C106_model (fac := fac) hlearn hc (by positivity) hfac (size := cfg.base.sizeGen)
    (by omega) w
  have hcast : ((cfg.base.sizeGen.toNat : ℕ) : ℝ) = (cfg.base.sizeGen : ℝ) := by
    have : ((cfg.base.sizeGen.toNat : ℕ) : ℤ) = cfg.base.sizeGen := by omega
    exact_mod_cast congrArg (Int.cast : ℤ → ℝ) this
  rw [spread_perm hperm, ← hrows, hN, hcast] at hE
  refine ⟨X, fun z => ?_, hi, hE, ?_⟩
  · obtain ⟨out, ho, _, hx⟩ := hX z
    obtain ⟨res', s', h1, h3, h4⟩ := hlast z out ho
    exact ⟨res', s', h1, h3, by rw [h4, hx]⟩
  · rw [hE, hrows, ← spread_perm hperm]
    have hpos : 0 < spread cfg.base.nVars w s1'.gen.rows := by
      rw [spread_cov (by intro h0; rw [h0] at hr; simp at hr) hn]
      rw [hc] at hpd
      exact (hp _ (fun i _ j _ => by rw [covEntry_eq, covEntry_eq, covariance_comm])).1 hpd w hw
    have hsc := C106_scott (N := cfg.base.sizeGen.toNat) (by omega) cfg.base.nVars
    rw [hcast] at hsc
    exact lt_mul_of_one_lt_left hpos hsc

end run

/-- Ten individuals of two variables from a box, all are selected, no elite, three generations. -/
noncomputable def Ex.broad : KedaCfg ℝ :=
  { base := { sizeGen := 10, maxIter := 3, deadIter := 0, nVars := 2, alpha := 1, eliteFactor := 0,
              parallel := false, wNoise := none, initData := none }
    lower := .array [0, -1], upper := .scalar 1 }

theorem Ex.broad_valid (k : ℕ) : UniformValid realEnv.cpu id (kedaMax Ex.broad k).base Ex.broad.lower Ex.broad.upper 10 where
  dead := by norm_num [Ex.broad, kedaMax]
  size := le_refl _
  pos := by norm_num
  trunc := by norm_num [Ex.broad, kedaMax, selLen, pyInt, Num.truncZ]
  cpu := by intro h; simp [Ex.broad, kedaMax] at h
  noise := .inl rfl
  lower := rfl
  upper := trivial
  data := by intro d hd; simp [Ex.broad, kedaMax] at hd

/-- C106 for every cost function: there is a run of three generations, and given its first two generations the third one is
expected to be wider than the second in the direction of the first variable and in that of the sum of the variables. -/
example (f : ℕ → List ℝ → ℝ) : ∃ isPD fac, PosDefTest 2 isPD ∧ Decomposes 2 fac ∧ ∃ e b ρ res s,
    UnivariateKEDA id isPD (fun N d => (N : ℝ) ^ (-2 / (d + 4) : ℝ)) fac Ex.broad = .ok (e, b) ∧
    minimize realEnv e f 0 b ρ = .ok (res, s) ∧
    ∀ w ∈ ([fun j => if j = 0 then 1 else 0, fun _ => 1] : List (ℕ → ℝ)), ∃ X : Draws ℝ → ℝ,
      (∀ z, ∃ res' s', minimize realEnv e f 0 b { ρ with sample := Function.update ρ.sample 2 z } = .ok (res', s') ∧
        X z = spread 2 w ((s'.log.getD 2 []).map Prod.fst)) ∧
      spread 2 w ((s.log.getD 1 []).map Prod.fst) < ∫ z, X z ∂drawsLaw (kdeLaw 2) := by
  obtain ⟨isPD, hp⟩ := posDefTest_exists (K := ℝ) 2
  obtain ⟨fac, hfac⟩ : ∃ fac, Decomposes 2 fac := svdRoots_symmetric 2
  have hh : ∀ N d : ℕ, 0 < N → 0 < (N : ℝ) ^ (-2 / (d + 4) : ℝ) := fun N d h =>
    Real.rpow_pos_of_pos (by exact_mod_cast h) _
  have hal : selLen id (10 : ℤ) (1 : ℝ) = 10 := by norm_num [selLen, pyInt, Num.truncZ]
  have hel : selLen id (10 : ℤ) (0 : ℝ) = 0 := by norm_num [selLen, pyInt, Num.truncZ]
  obtain ⟨e, b, he, _⟩ := C60_returns_or_singular_partial (fl := id) (isPD := isPD) (cfg := kedaMax Ex.broad (2 : ℕ))
    (h2 := fun N d => (N : ℝ) ^ (-2 / (d + 4) : ℝ)) (fac := fac) (f := f) (ftol := (0 : ℝ))
    (ρ := ⟨fun _ _ => 0, fun _ _ => 0, fun _ _ _ => 0, fun _ _ _ => 0⟩) realEnv_valid (Ex.broad_valid 2)
    (show 1 ≤ 2 by omega) (by omega) (show 2 ≤ selLen id (10 : ℤ) (1 : ℝ) by rw [hal]; omega) (fun _ _ => field_isNum _)
  have h1 := C104_first (env := realEnv) (f := f) (ftol := 0) (noiseDraws := fun _ _ => 0) realEnv_valid (Ex.broad_valid 2)
    (show 1 ≤ 2 by omega) (by omega) (fun _ _ => field_isNum _) hp rfl
    (by
      intro j hj
      have hj : j < 2 := hj
      interval_cases j <;> norm_num [Ex.broad, kedaMax, Bound.at])
    (show ((2 : ℕ) : ℤ) + 1 < selLen id (10 : ℤ) (1 : ℝ) by rw [hal]; omega)
    (show selLen id (10 : ℤ) (1 : ℝ) ≤ 10 by rw [hal]) rfl he
  have hP : IsProbabilityMeasure (drawsLaw (fun _ => unif01)) := by
    have : ∀ _ : ℕ, IsProbabilityMeasure unif01 := fun _ => ⟨by simp [unif01]⟩
    unfold drawsLaw; infer_instance
  obtain ⟨u, hu⟩ := h1.exists
  obtain ⟨⟨res, s⟩, hr⟩ := hu ⟨u, fun _ _ => 0, fun _ _ _ => 0, fun _ _ _ => 0⟩ rfl rfl
  obtain ⟨e', he', h⟩ := C104_next realEnv_valid (Ex.broad_valid 2) (show 1 ≤ 2 by omega) (by omega)
      (fun _ _ => field_isNum _) hp hh hfac (show 0 ≤ selLen id (10 : ℤ) (0 : ℝ) by rw [hel])
      (show ((2 : ℕ) : ℤ) + selLen id (10 : ℤ) (0 : ℝ) < selLen id (10 : ℤ) (1 : ℝ) by rw [hal, hel]; omega)
      (show selLen id (10 : ℤ) (1 : ℝ) ≤ 10 by rw [hal]) (k := 1) le_rfl rfl he hr
  have hP' : IsProbabilityMeasure (drawsLaw (kdeLaw 2)) := by unfold drawsLaw; infer_instance
  obtain ⟨z, hz⟩ := Filter.Eventually.exists (f := ae (drawsLaw (kdeLaw 2))) h
  obtain ⟨⟨res', s'⟩, hr'⟩ := hz (Function.update (fun _ _ _ => 0) 1 z) (fun v hv => Function.update_of_ne (by omega) _ _)
    (Function.update_self ..)
  have he' : UnivariateKEDA id isPD (fun N d => (N : ℝ) ^ (-2 / (d + 4) : ℝ)) fac Ex.broad = .ok (e', b) := he'
  have hmk := mkEda_ok (UnivariateKEDA_ok he').1
  refine ⟨isPD, fac, hp, hfac, e', b, _, res', s', he', hr', fun w hw => ?_⟩
  obtain ⟨X, hX, _, _, hlt⟩ := C106_grows (w := w) realEnv_valid (Ex.broad_valid 3) (show 1 ≤ 2 by omega) (by omega)
    hal hel (fun _ _ => field_isNum _) hp hfac (by rfl) (t := 2) le_rfl rfl he' hr'
    (history_max (m := 3) hmk.deadIter hmk.maxIter hr') (by
      refine ⟨0, by norm_num [Ex.broad, kedaMax], ?_⟩
      simp only [List.mem_cons, List.not_mem_nil, or_false] at hw
      rcases hw with rfl | rfl <;> norm_num)
  refine ⟨X, fun z => ?_, hlt⟩
  obtain ⟨r1, r2, h1, _, h3⟩ := hX z
  exact ⟨r1, r2, h1, h3⟩

end Verif
