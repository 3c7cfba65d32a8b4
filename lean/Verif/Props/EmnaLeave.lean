/-
C102: EMNA with a positive `lower_factor` leaves every bounded region with probability tending to 1.
-/
import Verif.Lemmas.EmnaLeave

set_option linter.unusedSectionVars false

namespace Verif

open PyCost Spec MeasureTheory ProbabilityTheory

namespace Spec

/-- The run evaluated an individual with a value that is larger than `B` in absolute value. -/
def EvaluatedBeyond {C σ : Type} (B : ℝ) (s : St (List ℝ) C σ) : Prop :=
  ∃ p ∈ s.log.flatten, ∃ x ∈ p.1, B < |x|

end Spec

/-- White noise whose entries are at most `W` in absolute value moves no value by more than `W`. -/
theorem addNoise_abs {n : ℕ} {w : ℝ} {k : ℤ} {m : Draws ℝ} {nz : Noise ℝ} (hnz : mkWhiteNoise w k n m = .ok nz)
    {B W : ℝ} (hB : 0 ≤ B) (hW : 0 ≤ W) (hm : w ≠ 0 → ∀ i < k.toNat, ∀ j < n, |m i j| ≤ W)
    {g g' : Gen (List ℝ)} (h : addNoise nz g = .ok g') (hg : ∀ r ∈ g.rows, ∀ x ∈ r, |x| ≤ B) :
    ∀ r ∈ g'.rows, ∀ j < n, |r.getD j 0| ≤ B + W := by
  have hget : ∀ r : List ℝ, (∀ x ∈ r, |x| ≤ B) → ∀ j, |r.getD j 0| ≤ B + W := by
    intro r hr j
    rw [List.getD_eq_getElem?_getD]
    rcases hj : r[j]? with _ | x
    · simp only [Option.getD_none, abs_zero]; linarith
    · simp only [Option.getD_some]
      have := hr x (List.mem_of_getElem? hj)
      linarith
  unfold mkWhiteNoise at hnz
  split at hnz
  · rw [← Except.ok.inj hnz] at h
    rw [addNoise_zero_eq h]
    exact fun r hr j _ => hget r (hg r hr) j
  rename_i hw
  split at hnz
  · rw [← Except.ok.inj hnz] at h
    unfold addNoise at h
    simp only at h
    split at h <;> simp at h
  split at hnz
  · simp at hnz
  split at hnz
  · simp at hnz
  rw [← Except.ok.inj hnz] at h
  unfold addNoise at h
  simp only at h
  split at h
  · simp at h
  · simp at h
  split at h
  · rename_i hc
    intro r hr j hj
    rw [← Except.ok.inj h] at hr
    simp only at hr
    obtain ⟨i, hi, rfl⟩ := List.mem_mapIdx.1 hr
    have hrow := hg _ (List.getElem_mem hi)
    generalize g.rows[i] = r0 at hrow
    rw [List.getD_eq_getElem?_getD, addNoiseRow, List.getElem?_mapIdx]
    rcases hx : r0[j]? with _ | x
    · simp only [Option.map_none, Option.getD_none, abs_zero]; linarith
    · simp only [Option.map_some, Option.getD_some]
      refine (abs_add_le _ _).trans (add_le_add (hrow x (List.mem_of_getElem? hx)) (hm hw _ ?_ _ ?_))
      · rcases hc.1 with h1 | h1
        · split
          · omega
          · omega
        · rw [if_pos h1]; omega
      · split
        · omega
        · exact hj
  · simp at h

section run
variable {fl : ℝ → ℝ} {fac : List (List ℝ) → List (List ℝ)} {cfg : EMNACfg ℝ} {env : Env ℝ}
variable {f : ℕ → List ℝ → ℝ} {ftol : ℝ} {ρ : Rand (Draws ℝ)}
variable {e : Eda (List ℝ) (MultiGauss ℝ) (Draws ℝ)} {b : MultiGauss ℝ}

/-- **C102** `EMNA` with `lower_factor > 0` and white noise bounded by `W`: if in some generation after the first the draws of the
first `n` individuals are spikes of size `L`, then an individual outside of the box `[-B, B]^n` is evaluated, whatever
the cost function, the first generation and the decomposition computed by numpy. -/
theorem C102_box (hv : env.Valid) (h : EMNA fl Real.sqrt fac cfg = .ok (e, b))
    (hfac : Decomposes cfg.base.nVars fac) (hn : 2 ≤ cfg.base.nVars)
    (hlf : 0 < cfg.lowerFactor) (hlu : cfg.lowerFactor ≤ cfg.upperFactor) {B W L : ℝ} (hB : 0 ≤ B) (hW : 0 ≤ W)
    (hnoise : cfg.base.noiseAttr ≠ 0 → ∀ i < (selLen fl cfg.base.sizeGen cfg.base.alpha).toNat, ∀ j < cfg.base.nVars,
      |ρ.noise i j| ≤ W)
    (hL : cfg.base.nVars ≤ L) (hfar : (2 * B + W) ^ 2 * (cfg.base.nVars ^ 3 * max cfg.upperFactor (2 * (B + W))) <
      (L - cfg.base.nVars) ^ 2 * cfg.lowerFactor ^ 2)
    (hsize : cfg.base.nVars ≤ cfg.base.sizeGen) {res : EdaResult (List ℝ) ℝ} {s : St (List ℝ) ℝ (MultiGauss ℝ)}
    (hrun : minimize env e f ftol b ρ = .ok (res, s)) {t : ℕ} (h1 : 1 ≤ t) (h2 : t < res.history.length)
    (hz : ρ.sample t ∈ spikes cfg.base.nVars L) : EvaluatedBeyond B s := by
  by_contra hcon
  have hin : ∀ r, (∃ p ∈ s.log.flatten, p.1 = r) → ∀ x ∈ r, |x| ≤ B := by
    rintro r ⟨p, hp, rfl⟩ x hx
    by_contra hx'
    exact hcon ⟨p, hp, x, hx, not_le.1 hx'⟩
  obtain ⟨he, _, _⟩ := EMNA_ok h
  have hm := mkEda_ok he
  obtain ⟨s1, s2, _, noise, hvis, hnz, hst, _, hgen, hsel⟩ := minimize_pass_log hv hrun h1 h2
  obtain ⟨s1', noisy, _, _, _, _, hs⟩ := step_ok hst
  rw [hm.mkNoise] at hnz
  obtain ⟨nz, hmk, rfl⟩ : ∃ nz, mkWhiteNoise cfg.base.noiseAttr (selLen fl cfg.base.sizeGen cfg.base.alpha)
      cfg.base.nVars ρ.noise = .ok nz ∧ addNoise nz = noise := by
    split at hnz
    · simp at hnz
    · rename_i nz hmk
      exact ⟨nz, hmk, Except.ok.inj hnz⟩
  have hu := hs.update
  rw [hm.updatePm] at hu
  have hu : s1.pm.learn Real.sqrt noisy = .ok s2.pm := hu
  have hsm := hs.sample
  rw [hm.sample] at hsm
  have hsm : s2.pm.sample fac cfg.base.sizeGen (ρ.sample t) = .ok s2.gen := hsm
  obtain ⟨k1, k2, k3⟩ := emna_key h hvis
  obtain ⟨hg, hsym, hoff⟩ := emna_learned (by rw [k2, k3]; exact hlu) hu hsm
  rw [k1] at hg hsym hoff
  rw [k2] at hoff
  have hrows : ∀ j < cfg.base.nVars, ∀ x ∈ col noisy.rows j, |x| ≤ B + W := by
    intro j hj x hx
    obtain ⟨r, hr, rfl⟩ := List.mem_map.1 hx
    exact addNoise_abs hmk hB hW hnoise hs.noise (fun r hr => hin r (hsel s1' hs.trunc r hr)) r hr j hj
  have hBW : 0 ≤ B + W := add_nonneg hB hW
  have hub : 0 < cfg.upperFactor := hlf.trans_le hlu
  obtain ⟨hbound, hmean⟩ : (∀ i < cfg.base.nVars, ∀ j < cfg.base.nVars,
      |entry s2.pm.cov i j| ≤ max cfg.upperFactor (2 * (B + W))) ∧ ∀ j < cfg.base.nVars, |s2.pm.means.getD j 0| ≤ B + W := by
    have hu' := hu
    unfold MultiGauss.learn at hu'
    split at hu'
    · simp at hu'
    split at hu'
    · simp at hu'
    split at hu'
    · simp at hu'
    have hu' := (Except.ok.inj hu').symm
    have hcols : noisy.cols = cfg.base.nVars := by
      have := hg.rows; rw [hu'] at this; simpa using this
    constructor
    · intro i hi j hj
      rw [hu', hcols]
      simp only
      rw [entry_map hi hj]
      split
      · rw [colStd_eq, abs_of_nonneg (Real.sqrt_nonneg _)]
        exact (dev_abs hBW (hrows i hi)).trans (le_max_right _ _)
      · rw [clampEntry_eq (by rw [k2, k3]; exact hlu), k2, k3]
        unfold clip
        rw [abs_of_nonneg (hlf.le.trans (le_max_left _ _))]
        exact (max_le hlu (min_le_left _ _)).trans (le_max_left _ _)
    · intro j hj
      rw [hu']
      simp only
      rw [List.getD_eq_getElem?_getD, List.getElem?_map, List.getElem?_range (by rw [k1]; exact hj)]
      simp only [Option.map_some, Option.getD_some]
      rw [colMean_eq]
      exact mean_abs hBW (hrows j hj)
  have hj0 : 0 < cfg.base.nVars := by omega
  obtain ⟨k, hk, hak⟩ := svdRoot_col_large (hfac _ hsym) hbound hlf (i := 1) (by omega) hj0
    ((hoff 1 (by omega) 0 hj0 (by omega)).trans (le_abs_self _))
  obtain ⟨i, hi, hfari⟩ := spike_far hz (a := fun k => entry (fac s2.pm.cov) k 0) hL ⟨k, hk, le_refl _⟩
  have hpos : 0 < (cfg.base.nVars : ℝ) ^ 3 * max cfg.upperFactor (2 * (B + W)) := by
    have : (0 : ℝ) < cfg.base.nVars := by exact_mod_cast hj0
    have := hub.trans_le (le_max_left cfg.upperFactor (2 * (B + W)))
    positivity
  have hbig : 2 * B + W < (L - cfg.base.nVars) * |entry (fac s2.pm.cov) k 0| := by
    refine lt_of_pow_lt_pow_left₀ 2 (mul_nonneg (by linarith) (abs_nonneg _)) ?_
    rw [mul_pow (L - _), sq_abs]
    have h3 := mul_le_mul_of_nonneg_left hak (sq_nonneg (L - cfg.base.nVars))
    refine lt_of_mul_lt_mul_right (a := (cfg.base.nVars : ℝ) ^ 3 * max cfg.upperFactor (2 * (B + W))) ?_ hpos.le
    calc _ < _ := hfar
      _ ≤ _ := h3
      _ = _ := by ring
  have h0 : 0 ≤ cfg.base.sizeGen := by omega
  rw [MultiGauss.sample_eq hg h0] at hsm
  have hmem : (List.range cfg.base.nVars).map (fun j => s2.pm.means.getD j 0 +
      ((List.range cfg.base.nVars).map (fun k => ρ.sample t i k * entry (fac s2.pm.cov) k j)).sum) ∈ s2.gen.rows := by
    rw [← Except.ok.inj hsm]
    exact List.mem_map.2 ⟨i, List.mem_range.2 (by omega), rfl⟩
  have hval := hin _ (hgen _ hmem) _ (List.mem_map.2 ⟨0, List.mem_range.2 hj0, rfl⟩)
  have hsum : ((List.range cfg.base.nVars).map (fun k => ρ.sample t i k * entry (fac s2.pm.cov) k 0)).sum =
      ∑ k ∈ Finset.range cfg.base.nVars, ρ.sample t i k * entry (fac s2.pm.cov) k 0 := rfl
  rw [hsum] at hval
  have hm0 := hmean 0 hj0
  have htri := abs_sub (s2.pm.means.getD 0 0 + ∑ k ∈ Finset.range cfg.base.nVars, ρ.sample t i k * entry (fac s2.pm.cov) k 0)
    (s2.pm.means.getD 0 0)
  rw [add_sub_cancel_left] at htri
  linarith

/-- **C102** the probability that at least `T` generations are evaluated without an individual outside of the box
decreases exponentially with `T`. -/
theorem C102_rate (hv : env.Valid) (h : EMNA fl Real.sqrt fac cfg = .ok (e, b))
    (hfac : Decomposes cfg.base.nVars fac) (hn : 2 ≤ cfg.base.nVars)
    (hlf : 0 < cfg.lowerFactor) (hlu : cfg.lowerFactor ≤ cfg.upperFactor) {B W L : ℝ} (hB : 0 ≤ B) (hW : 0 ≤ W)
    (hnoise : cfg.base.noiseAttr ≠ 0 → ∀ i < (selLen fl cfg.base.sizeGen cfg.base.alpha).toNat, ∀ j < cfg.base.nVars,
      |ρ.noise i j| ≤ W)
    (hL : cfg.base.nVars ≤ L) (hfar : (2 * B + W) ^ 2 * (cfg.base.nVars ^ 3 * max cfg.upperFactor (2 * (B + W))) <
      (L - cfg.base.nVars) ^ 2 * cfg.lowerFactor ^ 2)
    (hsize : cfg.base.nVars ≤ cfg.base.sizeGen) (D : Measure (Draws ℝ)) [IsProbabilityMeasure D] (T : ℕ) :
    eachGen D {ω | ∃ res s, minimize env e f ftol b { ρ with sample := ω } = .ok (res, s) ∧
        T ≤ res.history.length ∧ ¬ EvaluatedBeyond B s} ≤ (1 - D (spikes cfg.base.nVars L)) ^ (T - 1) := by
  have hAm := spikes_measurable cfg.base.nVars L
  have hsub : {ω | ∃ res s, minimize env e f ftol b { ρ with sample := ω } = .ok (res, s) ∧
      T ≤ res.history.length ∧ ¬ EvaluatedBeyond B s} ⊆
      Set.pi (Finset.Ico 1 T : Set ℕ) (fun _ => (spikes cfg.base.nVars L)ᶜ) := by
    rintro ω ⟨res, s, hrun, hT, hne⟩ t ht hA'
    simp only [Finset.coe_Ico, Set.mem_Ico] at ht
    exact hne (C102_box (ρ := { ρ with sample := ω }) hv h hfac hn hlf hlu hB hW hnoise hL hfar hsize hrun ht.1 (by omega) hA')
  refine (measure_mono hsub).trans ?_
  rw [eachGen, Measure.infinitePi_pi _ (fun _ _ => hAm.compl), Finset.prod_const, Nat.card_Ico,
    prob_compl_eq_one_sub hAm]

/-- **C102** `EMNA` with `lower_factor > 0`, at least as many individuals as variables and independent standard normal
draws: for every bounded region, the probability that a run without early stopping (`dead_iter = 0`) evaluates an
individual outside of it tends to 1 as `max_iter` grows, whatever the cost function, the bounds, the first
generation and the white noise. -/
theorem C102_leaves (hv : env.Valid) {m : ℕ} (hval : UniformValid env.cpu fl cfg.base cfg.lower cfg.upper m)
    (hm : 2 ≤ m) (h2 : 2 ≤ selLen fl cfg.base.sizeGen cfg.base.alpha)
    (hfac : Decomposes cfg.base.nVars fac) (hn : 2 ≤ cfg.base.nVars)
    (hlf : 0 < cfg.lowerFactor) (hlu : cfg.lowerFactor ≤ cfg.upperFactor)
    (hsize : cfg.base.nVars ≤ cfg.base.sizeGen) (B : ℝ) {ε : ENNReal} (hε : 0 < ε) :
    ∃ M : ℕ, ∀ k : ℕ, M ≤ k → ∃ e b,
      EMNA fl Real.sqrt fac { cfg with base := { cfg.base with maxIter := k, deadIter := 0 } } = .ok (e, b) ∧
      eachGen Spec.normalDraws {ω | ¬ ∃ res s, minimize env e f ftol b { ρ with sample := ω } = .ok (res, s) ∧
        EvaluatedBeyond B s} ≤ ε := by
  wlog hB : 0 ≤ B generalizing B
  · obtain ⟨M, hM⟩ := this 0 le_rfl
    refine ⟨M, fun k hk => ?_⟩
    obtain ⟨e, b, heb, hle⟩ := hM k hk
    refine ⟨e, b, heb, (measure_mono ?_).trans hle⟩
    rintro ω hω ⟨res, s, hr, p, hp, x, hx, hlt⟩
    exact hω ⟨res, s, hr, p, hp, x, hx, (not_le.1 hB).trans hlt⟩
  obtain ⟨W, hW, hnoise⟩ := noise_bounded ρ.noise (selLen fl cfg.base.sizeGen cfg.base.alpha).toNat cfg.base.nVars
  set Q : ℝ := (2 * B + W) ^ 2 * (cfg.base.nVars ^ 3 * max cfg.upperFactor (2 * (B + W))) with hQ
  have hQ0 : 0 ≤ Q := by
    have := (hlf.trans_le hlu).le.trans (le_max_left cfg.upperFactor (2 * (B + W)))
    positivity
  set L : ℝ := cfg.base.nVars + (1 + Q / cfg.lowerFactor ^ 2) with hLd
  have hL : (cfg.base.nVars : ℝ) ≤ L := by
    rw [hLd]; have : 0 ≤ Q / cfg.lowerFactor ^ 2 := by positivity
    linarith
  have hfar : Q < (L - cfg.base.nVars) ^ 2 * cfg.lowerFactor ^ 2 := by
    have hlf2 : 0 < cfg.lowerFactor ^ 2 := by positivity
    have e1 : L - cfg.base.nVars = 1 + Q / cfg.lowerFactor ^ 2 := by rw [hLd]; ring
    have hx : 0 ≤ Q / cfg.lowerFactor ^ 2 := by positivity
    have e2 : Q = Q / cfg.lowerFactor ^ 2 * cfg.lowerFactor ^ 2 := by field_simp
    rw [e1]
    nlinarith
  obtain ⟨M, hM⟩ := leave_limit (spikes_positive cfg.base.nVars L) hε
  refine ⟨M, fun k hk => ?_⟩
  set cfg' : EMNACfg ℝ := { cfg with base := { cfg.base with maxIter := k, deadIter := 0 } } with hc'
  have hval' : UniformValid env.cpu fl cfg'.base cfg'.lower cfg'.upper m :=
    { dead := by simp [hc'], size := hval.size, pos := hval.pos, trunc := hval.trunc, cpu := hval.cpu
      noise := hval.noise, lower := hval.lower, upper := hval.upper
      data := fun d hd => let h := hval.data d hd; ⟨⟨h.1.cols, h.1.rect, h.1.dt, h.1.fl⟩, h.2⟩ }
  have hrun : ∀ ω : ℕ → Draws ℝ, ∃ e b, EMNA fl Real.sqrt fac cfg' = .ok (e, b) ∧ ∃ res s,
      minimize env e f ftol b { ρ with sample := ω } = .ok (res, s) := fun ω =>
    C53_EMNA_never_raises hv hval' hn hm h2 (fun _ _ => field_isNum _)
  obtain ⟨e, b, heb, _⟩ := hrun (fun _ _ _ => 0)
  refine ⟨e, b, heb, le_trans (measure_mono ?_)
    ((C102_rate (f := f) (ftol := ftol) (ρ := ρ) hv heb hfac hn hlf hlu hB hW (fun _ => hnoise) hL hfar hsize
      Spec.normalDraws k).trans (hM k hk))⟩
  intro ω hω
  obtain ⟨e', b', heb', res, s, hr⟩ := hrun ω
  rw [heb] at heb'
  obtain ⟨rfl, rfl⟩ := Prod.mk.inj (Except.ok.inj heb')
  have hmk := mkEda_ok (EMNA_ok heb).1
  exact ⟨res, s, hr, history_max hmk.deadIter hmk.maxIter hr, fun ho => hω ⟨res, s, hr, ho⟩⟩

end run

/-- C102: started from four copies of `[1, 2, 3]`, with the default `lower_factor`, long runs leave the box of side
2000, even on the cost function that is smallest at `[1, 2, 3]`. -/
example : ∃ fac : List (List ℝ) → List (List ℝ), Decomposes 3 fac ∧ ∃ M : ℕ, ∀ k : ℕ, M ≤ k → ∃ e b,
    EMNA id Real.sqrt fac { Ex.copies (1/2) with base := { (Ex.copies (1/2)).base with maxIter := k, deadIter := 0 } } =
      .ok (e, b) ∧
    eachGen Spec.normalDraws {ω | ¬ ∃ res s, minimize realEnv e
      (fun _ r => |r.getD 0 0 - 1| + |r.getD 1 0 - 2| + |r.getD 2 0 - 3|) 0 b
      ⟨fun _ _ => 0, fun _ _ => 0, fun _ _ _ => 0, ω⟩ = .ok (res, s) ∧ EvaluatedBeyond 1000 s} ≤ 1 / 100 := by
  obtain ⟨fac, hfac⟩ := svdRoots_symmetric 3
  exact ⟨fac, hfac, C102_leaves (cfg := Ex.copies (1/2)) (m := 4)
    (ρ := ⟨fun _ _ => 0, fun _ _ => 0, fun _ _ _ => 0, fun _ _ _ => 0⟩) realEnv_valid
    (Ex.copies_valid _) (by norm_num)
    (by norm_num [Ex.copies, selLen, pyInt, Num.truncZ]) hfac (by norm_num [Ex.copies]) (by norm_num [Ex.copies])
    (by norm_num [Ex.copies]) (by norm_num [Ex.copies]) 1000 (by simp)⟩

end Verif
