/-
C101: EMNA leaves a population of equal individuals if and only if `lower_factor` is positive.
-/
import Verif.Lemmas.EmnaSpread
import Verif.Lemmas.SlopeGen
import Verif.Lemmas.NeutralGaussRun
import Verif.Props.Stuck
import Verif.Props.MultiGauss
import Verif.Props.HitTime

set_option linter.unusedSectionVars false

namespace Verif

open MeasureTheory ProbabilityTheory Spec WithLp

namespace Spec

/-- The factorisation decomposes every symmetric `n × n` matrix as numpy does. -/
def Decomposes (n : ℕ) (fac : List (List ℝ) → List (List ℝ)) : Prop :=
  ∀ c, (∀ i < n, ∀ j < n, entry c i j = entry c j i) → IsSvdRoot n (entry c) (entry (fac c))

/-- Generation number `t` contains two individuals with the same value of variable `j`. -/
def Repeats {C σ : Type} (t j : ℕ) (s : St (List ℝ) C σ) : Prop :=
  ∃ batch, s.log[t]? = some batch ∧ ¬ (batch.map fun p => p.1.getD j 0).Nodup

/-- Generation number `t` contains an individual whose variable `j` is `x`. -/
def Takes {C σ : Type} (t j : ℕ) (x : ℝ) (s : St (List ℝ) C σ) : Prop :=
  ∃ batch, s.log[t]? = some batch ∧ ∃ p ∈ batch, p.1.getD j 0 = x

end Spec

section law
variable {Ω : Type} [MeasurableSpace Ω] {P : Measure Ω} {U : Ω → Draws ℝ} {size : ℤ}

/-- **C101** `MultiGauss.sample` for every symmetric `pm_cov`: the individuals are independent and normal with mean
`pm_means`; their covariance is the positive semidefinite matrix with the same square as `pm_cov` (`pm_cov` itself
if that is positive semidefinite). -/
theorem C101_law (hU : IndepDraws P (fun _ => gaussianReal 0 1) U) {b : MultiGauss ℝ} (hb : b.Good b.n)
    {fac : List (List ℝ) → List (List ℝ)} (hfac : Decomposes b.n fac)
    (hsym : ∀ i < b.n, ∀ j < b.n, entry b.cov i j = entry b.cov j i)
    {S : Matrix (Fin b.n) (Fin b.n) ℝ} (hS : S.PosSemidef)
    (hsq : S * S = toMat b.n (entry b.cov) * toMat b.n (entry b.cov)) (hs : 0 ≤ size) :
    IndepRows P size.toNat b.n (fun ω => b.sample fac size (U ω))
      (multivariateGaussian (toLp 2 (fun j : Fin b.n => b.means.getD j 0)) S) := by
  have hgram := svdRoot_gram_unique hsym (hfac b.cov hsym) hS hsq
  refine indepRows_of hU (h := affineVec b.n (fun j => b.means.getD j 0) (entry (fac b.cov))) ?_
    (measurable_affineVec _ _ _) ?_
  · refine Filter.Eventually.of_forall fun ω => ⟨_, MultiGauss.sample_eq hb hs (U ω), rfl, by simp, ?_⟩
    intro i hi
    refine ⟨_, by rw [List.getElem?_map, List.getElem?_range hi]; rfl, by simp, fun j => ?_⟩
    have hj : (List.range b.n)[(j : ℕ)]? = some (j : ℕ) := List.getElem?_range j.2
    change (List.map _ (List.range b.n))[(j : ℕ)]? = _
    rw [List.getElem?_map, hj]
    rfl
  · intro i
    rw [← hgram]
    exact hasLaw_affineVec (hU.measurable i) (hU.cells i) (fun j _ => hU.law i j) _ _

/-- Statistics of equal individuals. -/
theorem equal_stats {sq : ℝ → ℝ} (hsq : IsSqrt sq) {g : Gen (List ℝ)} {w : List ℝ} (hr : 2 ≤ g.rows.length)
    (hw : ∀ r ∈ g.rows, r = w) : (∀ j, colMean g.rows j = w.getD j 0) ∧ (∀ j, colStd sq g.rows j = 0) ∧
      ∀ i j, covEntry g.rows i j = 0 := by
  have hrep : g.rows = List.replicate g.rows.length w := List.eq_replicate_iff.2 ⟨rfl, hw⟩
  have hN : (g.rows.length : ℝ) ≠ 0 := by
    have : g.rows.length ≠ 0 := by omega
    exact_mod_cast this
  have hmean : ∀ j, mean (col g.rows j) = w.getD j 0 := by
    intro j
    rw [mean, col, List.length_map, hrep]
    simp only [List.map_replicate, List.sum_replicate, List.length_replicate, nsmul_eq_mul]
    field_simp
  refine ⟨fun j => by rw [colMean_eq, hmean], fun j => ?_, fun i j => ?_⟩
  · have hv : Spec.variance (col g.rows j) = 0 := by
      unfold Spec.variance
      rw [hmean, mean, List.map_congr_left (g := fun _ => (0 : ℝ))]
      · simp
      · intro x hx
        obtain ⟨r, hr', rfl⟩ := List.mem_map.1 hx
        rw [hw r hr']; ring
    rw [colStd_eq, hv]
    have := hsq 0 le_rfl
    nlinarith [this.1, this.2]
  · rw [covEntry_eq, Spec.covariance, hmean, hmean, col, col, List.zipWith_map, List.zipWith_self]
    rw [List.map_congr_left (g := fun _ => (0 : ℝ))]
    · simp
    · intro r hr'
      rw [hw r hr']; ring

/-- **C101** what `EMNA` samples after learning from equal individuals `w`, with `lower_factor` not negative:
independent individuals with the multivariate normal law with mean `w`, variances `2 * lower_factor * (n - 1) / n` and
covariances `lower_factor * (n - 2) / n`. -/
theorem C101_equal_law (hU : IndepDraws P (fun _ => gaussianReal 0 1) U) {sq : ℝ → ℝ} (hsq : IsSqrt sq)
    {b b' : MultiGauss ℝ} {g : Gen (List ℝ)} {w : List ℝ} (hc : b.n = g.cols) (h2 : 2 ≤ b.n)
    (hr : 2 ≤ g.rows.length) (hlb : 0 ≤ b.lb) (hlu : b.lb ≤ b.ub) (hw : ∀ r ∈ g.rows, r = w)
    {fac : List (List ℝ) → List (List ℝ)} (hfac : Decomposes b.n fac) (h : b.learn sq g = .ok b') (hs : 0 ≤ size) :
    IndepRows P size.toNat b.n (fun ω => b'.sample fac size (U ω))
      (multivariateGaussian (toLp 2 (fun j : Fin b.n => w.getD j 0))
        (twoValues b.n (2 * b.lb * (b.n - 1) / b.n) (b.lb * (b.n - 2) / b.n))) := by
  obtain ⟨hm, hd, hcv⟩ := equal_stats hsq hr hw
  have hn' : (2 : ℝ) ≤ b.n := by exact_mod_cast h2
  have hn0 : (b.n : ℝ) ≠ 0 := by linarith
  have hl := MultiGauss.learn_eq (sq := sq) hc h2 hr
  rw [h] at hl
  have hl := Except.ok.inj hl
  have hn : b'.n = b.n := by rw [hl]
  have hgood : b'.Good b'.n := by
    rw [hl]
    refine ⟨rfl, by simp, by simp, ?_⟩
    intro r hr'
    simp only [List.mem_map] at hr'
    obtain ⟨i, _, rfl⟩ := hr'
    simp
  have hent : ∀ i < b.n, ∀ j < b.n, entry b'.cov i j = if i = j then 0 else b.lb := by
    intro i hi j hj
    rw [hl]
    simp only
    rw [entry_map hi hj]
    split
    · exact hd i
    · rw [hcv, clampEntry_eq hlu]
      unfold clip
      rw [min_eq_right (hlb.trans hlu), max_eq_left hlb]
  have hmat : toMat b.n (entry b'.cov) = twoValues b.n 0 b.lb := by
    ext i j
    show entry b'.cov i j = _
    rw [hent i i.2 j j.2, twoValues]
    simp only [Fin.ext_iff]
  have hmeans : (fun j : Fin b.n => w.getD j 0) = fun j : Fin b.n => b'.means.getD j 0 := by
    funext j
    rw [hl]
    simp only
    rw [List.getD_eq_getElem?_getD (l := List.map _ _), List.getElem?_map, List.getElem?_range j.2]
    simp [hm]
  have key := C101_law (P := P) (U := U) (size := size) (b := b') (fac := fac)
    (S := twoValues b'.n (2 * b.lb * (b.n - 1) / b.n) (b.lb * (b.n - 2) / b.n)) hU hgood (by rw [hn]; exact hfac)
    (by
      rw [hn]
      intro i hi j hj
      rw [hent i hi j hj, hent j hj i hi]
      simp only [eq_comm])
    (twoValues_posSemidef (div_nonneg (mul_nonneg hlb (by linarith)) (by linarith)) (by
      rw [div_le_div_iff_of_pos_right (by linarith)]
      nlinarith))
    (by
      rw [hn, hmat, twoValues_mul, twoValues_mul]
      congr 1 <;> field_simp <;> ring) hs
  rw [hmeans]
  rw [hn] at key
  exact key

end law

section causality
variable {R C σ Ω : Type} [PyCost C] {env : Env C} {e : Eda R σ Ω} {f : ℕ → R → C} {ftol : C} {pm : σ}

/-- The state before pass `t` does not depend on later draws. -/
theorem visited_agree {ρ ρ' : Rand Ω} {t : ℕ} {s : St R C σ} (h : Visited env e f ftol pm ρ t s)
    (hi : ρ'.init = ρ.init) (hn : ρ'.noise = ρ.noise) (hl : ρ'.learn = ρ.learn)
    (hs : ∀ u, u < t → ρ'.sample u = ρ.sample u) : Visited env e f ftol pm ρ' t s := by
  induction h with
  | first h0 =>
    refine .first ?_
    unfold start at h0 ⊢
    rw [hi]
    exact h0
  | @next t s s' noise _ hnz hst ih =>
    refine .next (ih fun u hu => hs u (by omega)) (by rw [hn]; exact hnz) ?_
    unfold step at hst ⊢
    rw [hl, hs t (by omega)]
    exact hst

end causality

section run
variable {fl sq : ℝ → ℝ} {fac : List (List ℝ) → List (List ℝ)} {cfg : EMNACfg ℝ} {env : Env ℝ}
variable {f : ℕ → List ℝ → ℝ} {ftol : ℝ} {ρ : Rand (Draws ℝ)}
variable {e : Eda (List ℝ) (MultiGauss ℝ) (Draws ℝ)} {b : MultiGauss ℝ}

theorem emna_key (h : EMNA fl sq fac cfg = .ok (e, b)) {t : ℕ} {s : St (List ℝ) ℝ (MultiGauss ℝ)}
    (hv : Visited env e f ftol b ρ t s) :
    s.pm.n = cfg.base.nVars ∧ s.pm.lb = cfg.lowerFactor ∧ s.pm.ub = cfg.upperFactor := by
  obtain ⟨he, _, hb⟩ := EMNA_ok h
  have hm := mkEda_ok he
  induction hv with
  | first h0 =>
    obtain ⟨_, _, _, _, _, hs⟩ := start_ok h0
    rw [hs.pm, hb]; exact ⟨rfl, rfl, rfl⟩
  | next _ _ hst ih =>
    obtain ⟨_, _, _, _, _, _, hs⟩ := step_ok hst
    have hu := hs.update
    rw [hm.updatePm] at hu
    obtain ⟨k1, k2, k3⟩ := MultiGauss.learn_key hu
    rw [k1, k2, k3]; exact ih

/-- The learned matrix: square, symmetric, and its entries off the diagonal are at least `lower_factor`. -/
theorem emna_learned {b b' : MultiGauss ℝ} {g gen : Gen (List ℝ)} {size : ℤ} {ω : Draws ℝ}
    (hlu : b.lb ≤ b.ub) (h : b.learn sq g = .ok b') (hs : b'.sample fac size ω = .ok gen) :
    b'.Good b.n ∧ (∀ i < b.n, ∀ j < b.n, entry b'.cov i j = entry b'.cov j i) ∧
      ∀ i < b.n, ∀ j < b.n, i ≠ j → b.lb ≤ entry b'.cov i j := by
  unfold MultiGauss.learn at h
  split at h
  · simp at h
  rename_i h1
  split at h
  · simp at h
  split at h
  · simp at h
  have h := (Except.ok.inj h).symm
  have hlen : b'.means.length = b'.cov.length := by
    unfold MultiGauss.sample at hs
    split at hs
    · simp at hs
    split at hs
    · simp at hs
    split at hs
    · simp at hs
    rename_i h4
    exact not_not.1 h4
  have hcols : g.cols = b.n := by rw [h] at hlen; simpa using hlen.symm
  rw [hcols] at h
  subst h
  refine ⟨⟨rfl, by simp, by simp, ?_⟩, ?_, ?_⟩
  · intro r hr
    simp only [List.mem_map] at hr
    obtain ⟨i, _, rfl⟩ := hr
    simp
  · intro i hi j hj
    simp only
    rw [entry_map hi hj, entry_map hj hi, covEntry_eq, covEntry_eq, covariance_comm j i]
    by_cases hij : i = j
    · rw [hij]
    · rw [if_neg hij, if_neg (Ne.symm hij)]
  · intro i hi j hj hij
    simp only
    rw [entry_map hi hj, if_neg hij, clampEntry_eq hlu]
    exact le_max_left _ _

/-- A sum of standard normal draws with coefficients that do not all vanish takes no value with positive
probability. -/
theorem affine_no_atom {n : ℕ} {a : ℕ → ℝ} (ha : ∃ k < n, a k ≠ 0) (m c : ℝ) :
    Verif.normalDraws {x | affine n m a x = c} = 0 := by
  obtain ⟨k, hk, hak⟩ := ha
  set S := ∑ k ∈ Finset.range n, a k ^ 2 with hS
  have hpos : 0 < S := Finset.sum_pos' (fun _ _ => sq_nonneg _) ⟨k, Finset.mem_range.2 hk, by positivity⟩
  have hr : 0 < Real.sqrt S := Real.sqrt_pos.2 hpos
  have hlaw := affine_law (b := fun k => a k / Real.sqrt S) n (by
    simp only [div_pow, Real.sq_sqrt hpos.le]
    rw [← Finset.sum_div, ← hS, div_self hpos.ne'])
  have hset : {x : ℕ → ℝ | affine n m a x = c} =
      affine n 0 (fun k => a k / Real.sqrt S) ⁻¹' {(c - m) / Real.sqrt S} := by
    ext x
    simp only [Set.mem_ofPred_eq, Set.mem_preimage, Set.mem_singleton_iff, affine]
    have : ∑ k ∈ Finset.range n, x k * (a k / Real.sqrt S) = (∑ k ∈ Finset.range n, x k * a k) / Real.sqrt S := by
      rw [Finset.sum_div]
      exact Finset.sum_congr rfl fun k _ => by ring
    rw [this, zero_add, div_left_inj' hr.ne']
    constructor <;> intro h <;> linarith
  rw [hset, hlaw.measure_preimage (measurableSet_singleton _).nullMeasurableSet]
  have := nullSingletonClass_gaussianReal (μ := 0) (v := 1) one_ne_zero
  exact measure_singleton _

/-- The sampled values of a variable are different. -/
theorem sampled_distinct {b : MultiGauss ℝ} {n : ℕ} (hb : b.Good n) {size : ℤ} {j : ℕ} (hj : j < n)
    (ha : ∃ k < n, entry (fac b.cov) k j ≠ 0) (x : ℝ) :
    ∀ᵐ z ∂Spec.normalDraws, ∀ gen, b.sample fac size z = .ok gen →
      (gen.rows.map fun r => r.getD j 0).Nodup ∧ ∀ r ∈ gen.rows, r.getD j 0 ≠ x := by
  set s : (ℕ → ℝ) → ℝ := affine n (b.means.getD j 0) (fun k => entry (fac b.cov) k j) with hsd
  have hsm : Measurable s := measurable_affine _ _ _
  have hnull : ∀ c, Verif.normalDraws {y | s y = c} = 0 := fun c => affine_no_atom ha _ c
  have h1 : ∀ᵐ z ∂Spec.normalDraws, Function.Injective fun i : Fin size.toNat => s (z i) :=
    (rows_law size.toNat).quasiMeasurePreserving.ae (no_ties hsm hnull)
  have h2 : ∀ᵐ z ∂Spec.normalDraws, ∀ i : Fin size.toNat, s (z i) ≠ x := by
    refine ae_all_iff.2 fun i => ?_
    have hmp : MeasurePreserving (fun z : Draws ℝ => z i) Spec.normalDraws Verif.normalDraws :=
      measurePreserving_eval_infinitePi (fun _ : ℕ => Verif.normalDraws) (i : ℕ)
    refine hmp.quasiMeasurePreserving.ae (p := fun y => s y ≠ x) ?_
    rw [ae_iff]
    simpa using hnull x
  filter_upwards [h1, h2] with z hz1 hz2 gen hg
  have h0 : 0 ≤ size := by have := (MultiGauss.sample_shape hg).2.2.2; omega
  rw [MultiGauss.sample_eq hb h0] at hg
  have hrow : ∀ i, ((List.range n).map (fun j => b.means.getD j 0 +
      ((List.range n).map (fun k => z i k * entry (fac b.cov) k j)).sum)).getD j 0 = s (z i) := by
    intro i
    rw [List.getD_eq_getElem?_getD, List.getElem?_map, List.getElem?_range hj]
    rfl
  rw [← Except.ok.inj hg]
  simp only
  constructor
  · rw [List.map_map]
    refine (List.nodup_map_iff_inj_on List.nodup_range).2 ?_
    intro i hi i' hi' heq
    simp only [Function.comp, hrow] at heq
    have := hz1 (a₁ := ⟨i, List.mem_range.1 hi⟩) (a₂ := ⟨i', List.mem_range.1 hi'⟩) heq
    simpa using this
  · intro r hr
    obtain ⟨i, hi, rfl⟩ := List.mem_map.1 hr
    rw [hrow]
    exact hz2 ⟨i, List.mem_range.1 hi⟩

/-- **C101** `EMNA` with a positive `lower_factor`: fix all draws except those of generation `t`.  With probability 1
no two individuals of this generation have the same value of variable `j`, and none has the value `x`. -/
theorem C101_distinct (hv : env.Valid) (h : EMNA fl sq fac cfg = .ok (e, b)) (hfac : Decomposes cfg.base.nVars fac)
    (hn : 2 ≤ cfg.base.nVars) (hlf : 0 < cfg.lowerFactor) (hlu : cfg.lowerFactor ≤ cfg.upperFactor)
    (ω : ℕ → Draws ℝ) {t : ℕ} (ht : 1 ≤ t) {j : ℕ} (hj : j < cfg.base.nVars) (x : ℝ) :
    Spec.normalDraws {z | ∃ res s,
      minimize env e f ftol b { ρ with sample := Function.update ω t z } = .ok (res, s) ∧
      (Repeats t j s ∨ Takes t j x s)} = 0 := by
  obtain ⟨he, _, _⟩ := EMNA_ok h
  have hm := mkEda_ok he
  by_cases hex : ∃ z res s, minimize env e f ftol b { ρ with sample := Function.update ω t z } = .ok (res, s) ∧
      t < res.history.length
  · obtain ⟨z0, res0, s0, hrun0, hlen0⟩ := hex
    obtain ⟨s1, s2, _, noise, hvis, hnz, hst, _⟩ := minimize_pass hv hrun0 ht hlen0
    obtain ⟨s1', noisy, _, _, _, _, hs⟩ := step_ok hst
    have hu := hs.update
    rw [hm.updatePm] at hu
    have hsm := hs.sample
    rw [hm.sample] at hsm
    obtain ⟨k1, k2, k3⟩ := emna_key h hvis
    obtain ⟨hg, hsym, hoff⟩ := emna_learned (by rw [k2, k3]; exact hlu) hu hsm
    rw [k1] at hg hsym hoff
    rw [k2] at hoff
    have ha : ∃ k < cfg.base.nVars, entry (fac s2.pm.cov) k j ≠ 0 := by
      obtain ⟨i, hi, hij⟩ : ∃ i < cfg.base.nVars, i ≠ j := by
        rcases Nat.eq_zero_or_pos j with h0 | h0
        · exact ⟨1, by omega, by omega⟩
        · exact ⟨0, by omega, by omega⟩
      exact svdRoot_col_ne (hfac _ hsym) hi hj (ne_of_gt (hlf.trans_le (hoff i hi j hj hij)))
    have hae := sampled_distinct (fac := fac) (size := cfg.base.sizeGen) hg hj ha x
    refine measure_mono_null ?_ (ae_iff.1 hae)
    rintro z ⟨res, s, hrun, hbad⟩ hall
    have hlen : t < res.history.length := by
      rw [← visited_log_length hrun]
      rcases hbad with ⟨_, hb, _⟩ | ⟨_, hb, _⟩ <;> exact (List.getElem?_eq_some_iff.1 hb).1
    obtain ⟨s1z, s2z, _, noisez, hvisz, hnzz, hstz, hlog⟩ := minimize_pass hv hrun ht hlen
    have hsame : s1z = s1 := by
      refine visited_unique hvisz (visited_agree hvis rfl rfl rfl fun u hu => ?_)
      show Function.update ω t z u = Function.update ω t z0 u
      rw [Function.update_of_ne (by omega), Function.update_of_ne (by omega)]
    subst hsame
    have hnoise : noisez = noise := by
      have h1 : e.mkNoise ρ.noise = .ok noisez := hnzz
      have h2 : e.mkNoise ρ.noise = .ok noise := hnz
      rw [h1] at h2
      exact Except.ok.inj h2
    subst hnoise
    obtain ⟨s1z', noisyz, _, _, _, _, hsz⟩ := step_ok hstz
    have e1 : s1z' = s1' := by have := hsz.trunc; rw [hs.trunc] at this; exact (Except.ok.inj this).symm
    subst e1
    have e2 : noisyz = noisy := by have := hsz.noise; rw [hs.noise] at this; exact (Except.ok.inj this).symm
    subst e2
    have e3 : s2z.pm = s2.pm := by
      have := hsz.update
      rw [hs.update] at this
      exact (Except.ok.inj this).symm
    have hsmz := hsz.sample
    rw [hm.sample, e3] at hsmz
    have hsmz : s2.pm.sample fac cfg.base.sizeGen z = .ok s2z.gen := by
      have e4 : Function.update ω t z t = z := Function.update_self ..
      rw [← e4]; exact hsmz
    obtain ⟨hd, hx⟩ := hall _ hsmz
    rcases hbad with ⟨batch, hb, hrep⟩ | ⟨batch, hb, p, hp, hpx⟩
    · rw [hb] at hlog
      have hlog := Option.some.inj hlog
      apply hrep
      have : (batch.map fun p => p.1.getD j 0) = (batch.map Prod.fst).map fun r => r.getD j 0 := by
        rw [List.map_map]; rfl
      rw [this, hlog]
      exact hd
    · rw [hb] at hlog
      have hlog := Option.some.inj hlog
      exact hx p.1 (by rw [← hlog]; exact List.mem_map.2 ⟨p, hp, rfl⟩) hpx
  · refine measure_mono_null (t := ∅) ?_ measure_empty
    rintro z ⟨res, s, hrun, hbad⟩
    refine hex ⟨z, res, s, hrun, ?_⟩
    rw [← visited_log_length hrun]
    rcases hbad with ⟨_, hb, _⟩ | ⟨_, hb, _⟩ <;> exact (List.getElem?_eq_some_iff.1 hb).1

/-- **C101** `EMNA` with `lower_factor ≤ 0 ≤ upper_factor` and without white noise: a run whose first generation
consists of copies of one individual evaluates nothing else, whatever the cost function, the elite and the draws. -/
theorem C101_only (hv : env.Valid) (hsq : IsSqrt sq) (h : EMNA fl sq fac cfg = .ok (e, b))
    (hfac : Decomposes cfg.base.nVars fac) (hnoise : cfg.base.noiseAttr = 0)
    (hlf : cfg.lowerFactor ≤ 0) (huf : 0 ≤ cfg.upperFactor) {w : List ℝ} (hw : w.length = cfg.base.nVars)
    {res : EdaResult (List ℝ) ℝ} {s : St (List ℝ) ℝ (MultiGauss ℝ)}
    (hrun : minimize env e f ftol b ρ = .ok (res, s)) (hs : StartsWith w s) : OnlyEvaluated w s := by
  obtain ⟨he, _, hb⟩ := EMNA_ok h
  have hm := mkEda_ok he
  refine only_of_starts (N := fun g => ∀ r ∈ g.rows, r = w)
    (I := fun pm => pm.n = cfg.base.nVars ∧ pm.lb = cfg.lowerFactor ∧ pm.ub = cfg.upperFactor)
    (Q := fun pm' => ∃ (pm : MultiGauss ℝ) (g : Gen (List ℝ)),
      (pm.n = cfg.base.nVars ∧ pm.lb = cfg.lowerFactor ∧ pm.ub = cfg.upperFactor) ∧ (∀ r ∈ g.rows, r = w) ∧
        pm.learn sq g = .ok pm') hv ?_ (by rw [hb]; exact ⟨rfl, rfl, rfl⟩) hrun hs
  intro hinit
  refine ⟨hinit, ?_, ?_, ?_⟩
  · intro nz g g' hnz hg hg'
    rw [hm.mkNoise, hnoise] at hnz
    simp [mkWhiteNoise] at hnz
    rw [← hnz] at hg'
    rw [addNoise_zero_eq hg']; exact hg
  · intro pm g el t pm' hI hN _ hu
    rw [hm.updatePm] at hu
    obtain ⟨k1, k2, k3⟩ := MultiGauss.learn_key hu
    exact ⟨by rw [k1, k2, k3]; exact hI, pm, g, hI, hN, hu⟩
  · rintro pm t g hI ⟨pm0, g0, hI0, hN, hu⟩ hsm r hr
    rw [hm.sample] at hsm
    have hsm : pm.sample fac cfg.base.sizeGen (ρ.sample t) = .ok g := hsm
    obtain ⟨hg, hsym, _⟩ := emna_learned
      (by rw [hI0.2.1, hI0.2.2]; exact hlf.trans huf) hu hsm
    rw [hI0.1] at hg hsym
    have h0 : 0 ≤ cfg.base.sizeGen := by have := (MultiGauss.sample_shape hsm).2.2.2; omega
    have hu' := hu
    unfold MultiGauss.learn at hu'
    split at hu'
    · simp at hu'
    split at hu'
    · simp at hu'
    split at hu'
    · simp at hu'
    rename_i h3
    push Not at h3
    obtain ⟨hmn, hd, hcv⟩ := equal_stats hsq h3.2 hN
    have hu' := (Except.ok.inj hu').symm
    have hcols : g0.cols = cfg.base.nVars := by
      have := hg.rows; rw [hu'] at this; simpa using this
    have hent : ∀ i < cfg.base.nVars, ∀ j < cfg.base.nVars, entry pm.cov i j = 0 := by
      intro i hi j hj
      rw [hu', hcols]
      simp only
      rw [entry_map hi hj]
      split
      · exact hd i
      · rw [hcv, clampEntry_eq (by rw [hI0.2.1, hI0.2.2]; exact hlf.trans huf), hI0.2.1, hI0.2.2]
        unfold clip
        rw [min_eq_right huf, max_eq_right hlf]
    have hroot : ∀ k < cfg.base.nVars, ∀ j < cfg.base.nVars, entry (fac pm.cov) k j = 0 := by
      have hgram := svdRoot_gram_unique (P := 0) hsym (hfac _ hsym) Matrix.PosSemidef.zero (by
        have : toMat cfg.base.nVars (entry pm.cov) = 0 := by
          ext i j; exact hent i i.2 j j.2
        rw [this])
      rw [← Matrix.conjTranspose_eq_transpose_of_trivial, Matrix.conjTranspose_mul_self_eq_zero] at hgram
      intro k hk j hj
      exact congrFun (congrFun hgram ⟨k, hk⟩) ⟨j, hj⟩
    rw [MultiGauss.sample_eq hg h0] at hsm
    rw [← Except.ok.inj hsm] at hr
    obtain ⟨i, _, rfl⟩ := List.mem_map.1 hr
    apply List.ext_getElem?
    intro j
    rcases Nat.lt_or_ge j cfg.base.nVars with hj | hj
    · rw [List.getElem?_map, List.getElem?_range hj, List.getElem?_eq_getElem (by rw [hw]; exact hj)]
      simp only [Option.map_some, Option.some.injEq]
      have hsum : ((List.range cfg.base.nVars).map fun k => ρ.sample t i k * entry (fac pm.cov) k j).sum = 0 := by
        rw [List.map_congr_left (g := fun _ => (0 : ℝ))]
        · simp
        · intro k hk; rw [hroot k (List.mem_range.1 hk) j hj, mul_zero]
      rw [hsum, add_zero, hu']
      simp only
      rw [List.getD_eq_getElem?_getD, List.getElem?_map, List.getElem?_range (by rw [hI0.1]; exact hj)]
      simp only [Option.map_some, Option.getD_some, hmn]
      rw [List.getD_eq_getElem?_getD, List.getElem?_eq_getElem (by rw [hw]; exact hj)]
      rfl
    · rw [List.getElem?_eq_none (by simpa using hj), List.getElem?_eq_none (by omega)]

end run

/-- `EMNA` started from four copies of `[1, 2, 3]`, with the given `lower_factor`. -/
noncomputable def Ex.copies (lf : ℝ) : EMNACfg ℝ :=
  { base := { sizeGen := 4, maxIter := 10, deadIter := 10, nVars := 3, alpha := 1/2, eliteFactor := 1/4,
              parallel := false, wNoise := none,
              initData := some { dt := .float, cols := 3, rows := List.replicate 4 [1, 2, 3] } }
    lower := .scalar 0, upper := .scalar 5, lowerFactor := lf, upperFactor := 100 }

theorem Ex.copies_valid (lf : ℝ) :
    UniformValid realEnv.cpu id (Ex.copies lf).base (Ex.copies lf).lower (Ex.copies lf).upper 4 where
  dead := le_refl _
  size := le_refl _
  pos := by norm_num
  trunc := by norm_num [Ex.copies, selLen, pyInt, Num.truncZ]
  cpu := by intro h; simp [Ex.copies] at h
  noise := .inl rfl
  lower := trivial
  upper := trivial
  data := by
    intro d hd
    simp only [Ex.copies, Option.some.injEq] at hd
    subst hd
    refine ⟨⟨rfl, ?_, by simp, by simp⟩, by simp⟩
    intro r hr
    obtain ⟨_, rfl⟩ := List.mem_replicate.1 hr
    rfl

/-- C101: from four copies of `[1, 2, 3]` the run with `lower_factor = 0` evaluates only `[1, 2, 3]`; with the default
0.5 the third variable takes four new values in generation 1, with probability 1. -/
example : ∃ fac : List (List ℝ) → List (List ℝ), Decomposes 3 fac ∧
    (∃ e b, EMNA id Real.sqrt fac (Ex.copies 0) = .ok (e, b) ∧ ∀ (f : ℕ → List ℝ → ℝ) (ρ : Rand (Draws ℝ)),
      ∃ res s, minimize realEnv e f 0 b ρ = .ok (res, s) ∧ OnlyEvaluated [1, 2, 3] s) ∧
    ∃ e b, EMNA id Real.sqrt fac (Ex.copies (1/2)) = .ok (e, b) ∧ ∀ (f : ℕ → List ℝ → ℝ) (ρ : Rand (Draws ℝ)),
      ∀ᵐ z ∂Spec.normalDraws, ∃ res s,
        minimize realEnv e f 0 b { ρ with sample := Function.update ρ.sample 1 z } = .ok (res, s) ∧
        ¬ Repeats 1 2 s ∧ ¬ Takes 1 2 3 s := by
  obtain ⟨fac, hfac⟩ := svdRoots_symmetric 3
  have hrun : ∀ (lf : ℝ) (f : ℕ → List ℝ → ℝ) (ρ : Rand (Draws ℝ)), ∃ e b,
      EMNA id Real.sqrt fac (Ex.copies lf) = .ok (e, b) ∧ ∃ res s, minimize realEnv e f 0 b ρ = .ok (res, s) :=
    fun lf f ρ => C53_EMNA_never_raises realEnv_valid (Ex.copies_valid lf) (by norm_num [Ex.copies]) (by norm_num)
      (by norm_num [Ex.copies, selLen, pyInt, Num.truncZ]) (fun _ _ => field_isNum _)
  refine ⟨fac, hfac, ?_, ?_⟩
  · obtain ⟨e, b, h, _⟩ := hrun 0 (fun _ _ => 0) ⟨fun _ _ => 0, fun _ _ => 0, fun _ _ _ => 0, fun _ _ _ => 0⟩
    refine ⟨e, b, h, fun f ρ => ?_⟩
    obtain ⟨e', b', h', res, s, hr⟩ := hrun 0 f ρ
    rw [h] at h'
    obtain ⟨rfl, rfl⟩ := Prod.mk.inj (Except.ok.inj h')
    refine ⟨res, s, hr, C101_only realEnv_valid real_isSqrt h hfac rfl (le_refl _) (by norm_num [Ex.copies]) rfl hr ?_⟩
    obtain ⟨g, batch, h1, h2, h3⟩ := first_batch realEnv_valid hr
    refine ⟨batch, h2, fun p hp => ?_⟩
    have hm := mkEda_ok (EMNA_ok h).1
    have hg := h1
    rw [(hm.initSome _ rfl).2] at hg
    have hmem : p.1 ∈ g.rows := by rw [← h3]; exact List.mem_map.2 ⟨p, hp, rfl⟩
    rw [← Except.ok.inj hg] at hmem
    exact (List.mem_replicate.1 hmem).2
  · obtain ⟨e, b, h, _⟩ := hrun (1/2) (fun _ _ => 0) ⟨fun _ _ => 0, fun _ _ => 0, fun _ _ _ => 0, fun _ _ _ => 0⟩
    refine ⟨e, b, h, fun f ρ => ?_⟩
    have key := C101_distinct (f := f) (ftol := 0) (ρ := ρ) realEnv_valid h hfac (by norm_num [Ex.copies])
      (by norm_num [Ex.copies]) (by norm_num [Ex.copies]) ρ.sample (t := 1) le_rfl (j := 2)
      (by norm_num [Ex.copies]) 3
    filter_upwards [compl_mem_ae_iff.2 key] with z hz
    obtain ⟨e', b', h', res, s, hr⟩ := hrun (1/2) f { ρ with sample := Function.update ρ.sample 1 z }
    rw [h] at h'
    obtain ⟨rfl, rfl⟩ := Prod.mk.inj (Except.ok.inj h')
    exact ⟨res, s, hr, fun hc => hz ⟨res, s, hr, .inl hc⟩, fun hc => hz ⟨res, s, hr, .inr hc⟩⟩

/-- C101: with three variables and `lower_factor = 0.5`, the individuals sampled after learning from two copies of
`[1, 2, 3]` are normal with variances 2/3 and covariances 1/6. -/
example : ∃ fac : List (List ℝ) → List (List ℝ), Decomposes 3 fac ∧
    ∃ b' : MultiGauss ℝ, (MultiGauss.new 3 (1/2) 100).learn Real.sqrt
        { dt := .float, cols := 3, rows := [[1, 2, 3], [1, 2, 3]] } = .ok b' ∧
      IndepRows Spec.normalDraws 4 3 (fun z => b'.sample fac 4 z)
        (multivariateGaussian (toLp 2 (fun j : Fin 3 => [(1 : ℝ), 2, 3].getD j 0)) (twoValues 3 (2/3) (1/6))) := by
  obtain ⟨fac, hfac⟩ := svdRoots_symmetric 3
  refine ⟨fac, hfac, _, MultiGauss.learn_eq rfl (by simp [MultiGauss.new]) (by simp), ?_⟩
  have key := C101_equal_law (size := 4) (b := MultiGauss.new 3 (1/2) 100) (w := [1, 2, 3])
    (g := { dt := .float, cols := 3, rows := [[1, 2, 3], [1, 2, 3]] })
    (indepDraws_exist fun _ => gaussianReal 0 1) real_isSqrt rfl (by simp [MultiGauss.new]) (by simp)
    (by norm_num [MultiGauss.new]) (by norm_num [MultiGauss.new]) (by simp) hfac
    (MultiGauss.learn_eq rfl (by simp [MultiGauss.new]) (by simp)) (by norm_num)
  have e1 : 2 * (MultiGauss.new 3 (1/2 : ℝ) 100).lb * (((MultiGauss.new 3 (1/2 : ℝ) 100).n : ℕ) - 1) /
      ((MultiGauss.new 3 (1/2 : ℝ) 100).n : ℕ) = 2/3 := by norm_num [MultiGauss.new]
  have e2 : (MultiGauss.new 3 (1/2 : ℝ) 100).lb * (((MultiGauss.new 3 (1/2 : ℝ) 100).n : ℕ) - 2) /
      ((MultiGauss.new 3 (1/2 : ℝ) 100).n : ℕ) = 1/6 := by norm_num [MultiGauss.new]
  rw [e1, e2] at key
  exact key

end Verif
