/-
C85: a variable that the cost function ignores is fixed by genetic drift in UMDAd without bounds.
-/
import Verif.Lemmas.NeutralRun
import Verif.Props.Loop

set_option linter.unusedSectionVars false

namespace Verif

open PyCost Spec MeasureTheory

section
variable {cfg : UMDAdCfg ℝ} {ρ : Rand (Draws ℝ)} {j : ℕ}
variable {e : Eda (List ℝ) (UniBin ℝ) (Draws ℝ)} {b : UniBin ℝ}
variable {C : Type} [PyCost C] {env : Env C} {f : ℕ → List ℝ → C} {ftol : C}

/-- **C85.**  `UMDAd` in exact arithmetic with `lower_bound ≤ 0`, `upper_bound ≥ 1` and no elite, and a
cost function that ignores variable `j`.  Fix all random numbers of a run except those from which
variable `j` is sampled, and let these be independent and uniform.  Then every run returns with the
same history; the probability of variable `j` in the final model has as mean its value `p` after the
first iteration; and the mean of `P (1 - P)` shrinks in every further iteration by the factor
`1 - 1 / q`, where `q` is the number of selected individuals. -/
theorem C85_drift (hv : env.Valid) (h : UMDAd id cfg = .ok (e, b)) (hw : cfg.WF)
    (hj : j < cfg.base.nVars) (hlo : cfg.lower ≤ 0) (hup : 1 ≤ cfg.upper)
    (hbin : ∀ d, cfg.base.initData = some d → ∀ r ∈ d.rows, BinaryRow cfg.base.nVars r)
    (hf : Ignores cfg.base.nVars j f) (ht1 : 1 ≤ e.truncLen) (ht2 : e.truncLen ≤ e.sizeGen)
    (he : e.eliteLen = 0) {res : EdaResult (List ℝ) C} {s : St (List ℝ) C (UniBin ℝ)}
    (hrun : minimize env e f ftol b ρ = .ok (res, s)) (hlen : 2 ≤ res.history.length) :
    ∃ (p : ℝ) (P : (ℕ × ℕ → ℝ) → ℝ), 0 ≤ p ∧ p ≤ 1 ∧
      (∀ s0 N s1 brk, start env e f b ρ = .ok s0 → e.mkNoise ρ.noise = .ok N →
        step env e f ftol ρ N 1 s0 = .ok (s1, brk) → s1.pm.p[j]? = some p) ∧
      Measurable P ∧ (∀ u, 0 ≤ P u ∧ P u ≤ 1) ∧
      (∀ u, ∃ res' s', minimize env e f ftol b (withColumn ρ j u) = .ok (res', s') ∧
        res'.history = res.history ∧ s'.pm.p[j]? = some (P u)) ∧
      ∫ u, P u ∂cells = p ∧
      ∫ u, P u * (1 - P u) ∂cells =
        (1 - 1 / (e.truncLen.toNat : ℝ)) ^ (res.history.length - 2) * (p * (1 - p)) ∧
      (3 ≤ res.history.length →
        ∀ u, ∃ k : ℕ, k ≤ e.truncLen.toNat ∧ P u = k / (e.truncLen.toNat : ℝ)) := by
  obtain ⟨s0, N, hs0, hN, hl, hres⟩ := minimize_ok hrun
  have hh : res.history = s.history := by rw [hres]
  have hl0 : s0.history.length = 1 := by
    obtain ⟨_, _, _, _, _, ho⟩ := start_ok hs0
    rw [ho.history]; rfl
  rcases hk : (e.maxIter - 1).toNat with _ | k
  · rw [hk] at hl
    obtain rfl := Except.ok.inj hl
    rw [hh] at hlen
    omega
  rw [hk] at hl
  unfold loop at hl
  rcases hst : step env e f ftol ρ N 1 s0 with err | ⟨s1, brk⟩
  · rw [hst] at hl; simp at hl
  rw [hst] at hl
  obtain ⟨S1, p, hp0, hp1, hpj, hS1, hd1⟩ := drifting_first hv h hw hj hlo hup hbin hf he hN hs0 hst
  have hl1 : s1.history.length = 2 := by
    obtain ⟨_, _, _, _, _, _, ho⟩ := step_ok hst
    rw [ho.history, List.length_append, hl0]; rfl
  have hfin : ∃ t' S' P', s.history.length = t' + 2 ∧
      Drifting cfg j (t' + 1) p ((1 - 1 / (e.truncLen.toNat : ℝ)) ^ t' * (p * (1 - p))) s S' P' ∧
      (1 ≤ t' → ∀ u, ∃ k : ℕ, k ≤ e.truncLen.toNat ∧ P' u = k / (e.truncLen.toNat : ℝ)) ∧
      ∀ u, loop env e f ftol (withColumn ρ j u) N (k + 1) 1 s0 = .ok (S' u) := by
    cases brk with
    | true =>
      obtain rfl := Except.ok.inj hl
      refine ⟨0, S1, _, hl1, by simpa using hd1, fun h => by omega, fun u => ?_⟩
      unfold loop
      rw [hS1 u]
    | false =>
      obtain ⟨t', S', P', q1, q2, q3, q4⟩ := drifting_loop hv h hw hj hlo hup hf ht1 ht2 he hN k 0 s1 S1
        (fun _ => p) (v := p * (1 - p)) hl1 (by simpa using hd1) (fun h => by omega) hl
      refine ⟨t', S', P', q1, q2, q3, fun u => ?_⟩
      unfold loop
      rw [hS1 u]
      exact q4 u
  obtain ⟨t', S', P', q1, q2, q3, q4⟩ := hfin
  refine ⟨p, P', hp0, hp1, ?_, q2.measurable, q2.unit, fun u => ?_, q2.mean, ?_, ?_⟩
  · intro s0' N' s1' brk' h1 h2 h3
    rw [hs0] at h1
    obtain rfl := Except.ok.inj h1
    rw [hN] at h2
    obtain rfl := Except.ok.inj h2
    rw [hst] at h3
    simp only [Except.ok.injEq, Prod.mk.injEq] at h3
    rw [← h3.1]
    exact hpj
  · refine ⟨⟨(S' u).bestInd, (S' u).bestCost, (S' u).history.length * e.sizeGen, (S' u).history⟩,
      S' u, ?_, ?_, q2.prob u⟩
    · unfold minimize
      have hs0' : start env e f b (withColumn ρ j u) = .ok s0 := hs0
      have hN' : e.mkNoise (withColumn ρ j u).noise = .ok N := hN
      rw [hs0', hN', hk]
      simp only [q4 u]
    · rw [hh]
      exact (q2.rel u).history
  · rw [hh, q1]; exact q2.var
  · intro h3
    exact q3 (by rw [hh, q1] at h3; omega)

/-- **C85**, fixation: the probability that variable `j` can still take both values in the final model
falls geometrically with the number of iterations, and the value that is left is `1` with
probability `p`, up to this. -/
theorem C85_fixation (hv : env.Valid) (h : UMDAd id cfg = .ok (e, b)) (hw : cfg.WF)
    (hj : j < cfg.base.nVars) (hlo : cfg.lower ≤ 0) (hup : 1 ≤ cfg.upper)
    (hbin : ∀ d, cfg.base.initData = some d → ∀ r ∈ d.rows, BinaryRow cfg.base.nVars r)
    (hf : Ignores cfg.base.nVars j f) (ht1 : 1 ≤ e.truncLen) (ht2 : e.truncLen ≤ e.sizeGen)
    (he : e.eliteLen = 0) {res : EdaResult (List ℝ) C} {s : St (List ℝ) C (UniBin ℝ)}
    (hrun : minimize env e f ftol b ρ = .ok (res, s)) (hlen : 3 ≤ res.history.length) :
    ∃ (p : ℝ) (P : (ℕ × ℕ → ℝ) → ℝ), 0 ≤ p ∧ p ≤ 1 ∧
      (∀ s0 N s1 brk, start env e f b ρ = .ok s0 → e.mkNoise ρ.noise = .ok N →
        step env e f ftol ρ N 1 s0 = .ok (s1, brk) → s1.pm.p[j]? = some p) ∧
      (∀ u, ∃ res' s', minimize env e f ftol b (withColumn ρ j u) = .ok (res', s') ∧
        res'.history = res.history ∧ s'.pm.p[j]? = some (P u)) ∧
      cells.real {u | P u ≠ 0 ∧ P u ≠ 1} ≤
        e.truncLen.toNat * (1 - 1 / (e.truncLen.toNat : ℝ)) ^ (res.history.length - 3) * (p * (1 - p)) ∧
      |cells.real {u | P u = 1} - p| ≤
        e.truncLen.toNat * (1 - 1 / (e.truncLen.toNat : ℝ)) ^ (res.history.length - 3) * (p * (1 - p)) := by
  obtain ⟨p, P, hp0, hp1, hfirst, hm, h01, hruns, hmean, hvar, hgrid'⟩ :=
    C85_drift hv h hw hj hlo hup hbin hf ht1 ht2 he hrun (by omega)
  have hgrid := hgrid' hlen
  set q : ℝ := (e.truncLen.toNat : ℝ) with hq
  have hq1 : 1 ≤ q := by
    have : 1 ≤ e.truncLen.toNat := by omega
    rw [hq]; exact_mod_cast this
  set L := res.history.length with hL
  have hA : MeasurableSet {u | P u ≠ 0 ∧ P u ≠ 1} := by
    have h0 : MeasurableSet {u | P u = 0} := hm (measurableSet_singleton 0)
    have h1 : MeasurableSet {u | P u = 1} := hm (measurableSet_singleton 1)
    exact h0.compl.inter h1.compl
  have hB : MeasurableSet {u | P u = 1} := hm (measurableSet_singleton 1)
  have hint : Integrable (fun u => P u * (1 - P u)) cells :=
    Integrable.of_bound (hm.mul (measurable_const.sub hm)).aestronglyMeasurable 1
      (Filter.Eventually.of_forall fun u => by
        obtain ⟨a, c⟩ := h01 u
        rw [Real.norm_eq_abs, abs_of_nonneg (mul_nonneg a (by linarith))]
        nlinarith)
  have hPint : Integrable P cells :=
    Integrable.of_bound hm.aestronglyMeasurable 1 (Filter.Eventually.of_forall fun u => by
      obtain ⟨a, c⟩ := h01 u
      rw [Real.norm_eq_abs, abs_of_nonneg a]; exact c)
  -- an unfixed probability is at least `1 / q` away from `0` and `1`
  have hmid : ∀ u, P u ≠ 0 → P u ≠ 1 → 1 / q ≤ P u ∧ 1 / q ≤ 1 - P u ∧ 2 ≤ q := by
    intro u h0 h1
    obtain ⟨k, hk, hP⟩ := hgrid u
    have hk0 : k ≠ 0 := by rintro rfl; apply h0; rw [hP]; simp
    have hk1 : k ≠ e.truncLen.toNat := by
      rintro rfl; apply h1; rw [hP]; exact div_self (by positivity)
    have a1 : (1 : ℝ) ≤ k := by exact_mod_cast Nat.one_le_iff_ne_zero.2 hk0
    have a2 : (k : ℝ) + 1 ≤ q := by
      have : k + 1 ≤ e.truncLen.toNat := by omega
      rw [hq]; exact_mod_cast this
    have hqp : 0 < q := by linarith
    refine ⟨?_, ?_, by linarith⟩
    · rw [hP]; exact div_le_div_of_nonneg_right a1 hqp.le
    · rw [hP, one_sub_div hqp.ne']
      exact div_le_div_of_nonneg_right (by linarith) hqp.le
  have hnn : 0 ≤ p * (1 - p) := mul_nonneg hp0 (by linarith)
  have hfac : 0 ≤ 1 - 1 / q := by
    rw [sub_nonneg, div_le_one (by linarith)]; exact hq1
  have hbound : cells.real {u | P u ≠ 0 ∧ P u ≠ 1} ≤
      q * (1 - 1 / q) ^ (L - 3) * (p * (1 - p)) := by
    rcases Set.eq_empty_or_nonempty {u | P u ≠ 0 ∧ P u ≠ 1} with hem | ⟨u0, hu0⟩
    · rw [hem]
      simp only [measureReal_empty]
      exact mul_nonneg (mul_nonneg (by linarith) (pow_nonneg hfac _)) hnn
    · obtain ⟨_, _, hq2⟩ := hmid u0 hu0.1 hu0.2
      have hqp : 0 < q := by linarith
      have hlt : 0 < 1 - 1 / q := by
        rw [sub_pos, div_lt_one hqp]; linarith
      have hmk := integral_mono (f := ({u | P u ≠ 0 ∧ P u ≠ 1}).indicator (fun _ => 1 / q * (1 - 1 / q)))
        (g := fun u => P u * (1 - P u)) (μ := cells) ((integrable_const _).indicator hA) hint (by
          intro u
          by_cases hu : u ∈ {u | P u ≠ 0 ∧ P u ≠ 1}
          · rw [Set.indicator_of_mem hu]
            obtain ⟨a1, a2, _⟩ := hmid u hu.1 hu.2
            show 1 / q * (1 - 1 / q) ≤ P u * (1 - P u)
            nlinarith
          · rw [Set.indicator_of_notMem hu]
            obtain ⟨a, c⟩ := h01 u
            exact mul_nonneg a (by linarith))
      rw [integral_indicator hA, setIntegral_const, hvar, smul_eq_mul] at hmk
      have hpow : (1 - 1 / q) ^ (L - 2) = (1 - 1 / q) ^ (L - 3) * (1 - 1 / q) := by
        rw [← pow_succ]; congr 1; omega
      rw [hpow] at hmk
      have h2 : cells.real {u | P u ≠ 0 ∧ P u ≠ 1} * (1 / q) ≤ (1 - 1 / q) ^ (L - 3) * (p * (1 - p)) := by
        refine le_of_mul_le_mul_right ?_ hlt
        nlinarith
      calc cells.real {u | P u ≠ 0 ∧ P u ≠ 1}
          = q * (cells.real {u | P u ≠ 0 ∧ P u ≠ 1} * (1 / q)) := by field_simp
        _ ≤ q * ((1 - 1 / q) ^ (L - 3) * (p * (1 - p))) := mul_le_mul_of_nonneg_left h2 hqp.le
        _ = _ := by ring
  refine ⟨p, P, hp0, hp1, hfirst, hruns, hbound, le_trans ?_ hbound⟩
  have i1 : ∫ u, ({u | P u = 1}).indicator (fun _ => (1 : ℝ)) u ∂cells = cells.real {u | P u = 1} := by
    rw [integral_indicator hB]; simp
  have i2 : ∫ u, ({u | P u ≠ 0 ∧ P u ≠ 1}).indicator (fun _ => (1 : ℝ)) u ∂cells =
      cells.real {u | P u ≠ 0 ∧ P u ≠ 1} := by
    rw [integral_indicator hA]; simp
  have n1 : Integrable (({u | P u = 1}).indicator (fun _ => (1 : ℝ))) cells :=
    (integrable_const _).indicator hB
  have n2 : Integrable (({u | P u ≠ 0 ∧ P u ≠ 1}).indicator (fun _ => (1 : ℝ))) cells :=
    (integrable_const _).indicator hA
  have l1 : cells.real {u | P u = 1} ≤ p := by
    rw [← i1, ← hmean]
    refine integral_mono n1 hPint fun u => ?_
    by_cases hu : u ∈ {u | P u = 1}
    · rw [Set.indicator_of_mem hu]; exact (show P u = 1 from hu).ge
    · rw [Set.indicator_of_notMem hu]; exact (h01 u).1
  have l2 : p ≤ cells.real {u | P u = 1} + cells.real {u | P u ≠ 0 ∧ P u ≠ 1} := by
    rw [← i1, ← i2, ← integral_add n1 n2, ← hmean]
    refine integral_mono hPint (n1.add n2) fun u => ?_
    show P u ≤ ({u | P u = 1}).indicator (fun _ => (1 : ℝ)) u +
      ({u | P u ≠ 0 ∧ P u ≠ 1}).indicator (fun _ => (1 : ℝ)) u
    by_cases hu : P u = 1
    · rw [Set.indicator_of_mem (show u ∈ {u | P u = 1} from hu)]
      have : 0 ≤ ({u | P u ≠ 0 ∧ P u ≠ 1}).indicator (fun _ => (1 : ℝ)) u :=
        Set.indicator_nonneg (fun _ _ => zero_le_one) u
      linarith
    · rw [Set.indicator_of_notMem (show u ∉ {u | P u = 1} from hu)]
      by_cases h0 : P u = 0
      · rw [h0]
        have : 0 ≤ ({u | P u ≠ 0 ∧ P u ≠ 1}).indicator (fun _ => (1 : ℝ)) u :=
          Set.indicator_nonneg (fun _ _ => zero_le_one) u
        linarith
      · rw [Set.indicator_of_mem (show u ∈ {u | P u ≠ 0 ∧ P u ≠ 1} from ⟨h0, hu⟩)]
        have := (h01 u).2
        linarith
  rw [abs_le]
  constructor <;> linarith

/-- Two bits, 4 individuals of which 2 are selected, 12 iterations, no bounds, no elite. -/
noncomputable def Ex.driftCfg : UMDAdCfg ℝ :=
  { base := { sizeGen := 4, maxIter := 12, deadIter := 0, nVars := 2, alpha := 1/2,
              eliteFactor := 0, parallel := false, initData := none, wNoise := none }
    vector := none, lower := 0, upper := 1 }

/-- C85: a cost function that only looks at the first bit.  Whatever the other random numbers, the second
bit can still take both values after 12 iterations with probability at most `1 / 1024`. -/
example (ρ : Rand (Draws ℝ)) (ftol : ℝ) : ∃ e b, UMDAd id Ex.driftCfg = .ok (e, b) ∧
    ∃ P : (ℕ × ℕ → ℝ) → ℝ, (∀ u, ∃ res s,
      minimize realEnv e (fun _ r => r.getD 0 0) ftol b (withColumn ρ 1 u) = .ok (res, s) ∧
        res.history.length = 12 ∧ s.pm.p[1]? = some (P u)) ∧
    cells.real {u | P u ≠ 0 ∧ P u ≠ 1} ≤ 1 / 1024 := by
  have hw : Ex.driftCfg.WF :=
    ⟨by intro v hv; simp [Ex.driftCfg] at hv, by intro d hd; simp [Ex.driftCfg] at hd⟩
  obtain ⟨e, b, h, res, s, hrun⟩ := C53_UMDAd_never_raises (fl := id) (cfg := Ex.driftCfg)
    (env := realEnv) (f := fun _ r => r.getD 0 0) (ftol := ftol) (ρ := ρ) realEnv_valid hw
    (by simp [Ex.driftCfg]) (by norm_num [Ex.driftCfg]) (by intro d hd; simp [Ex.driftCfg] at hd)
    (by norm_num [Ex.driftCfg]) (by intro h; simp [Ex.driftCfg] at h)
    (by norm_num [Ex.driftCfg, selLen, pyInt, Num.truncZ]) (by intro k r; simp [IsNum, PyCost.eq])
  have hm := (UMDAd_ok h).1
  have hl : res.history.length = 12 := by
    have h1 := (C06_dead_iter hrun).2.2 (by rw [hm.deadIter]; simp [Ex.driftCfg])
    rw [hm.maxIter] at h1
    simp only [Ex.driftCfg] at h1
    norm_num at h1
    exact_mod_cast h1
  have ht : e.truncLen = 2 := by
    rw [hm.truncLen]; norm_num [Ex.driftCfg, selLen, pyInt, Num.truncZ]
  have hs : e.sizeGen = 4 := by rw [hm.sizeGen]; rfl
  obtain ⟨p, P, hp0, hp1, _, hruns, hb, _⟩ := C85_fixation (j := 1) realEnv_valid h hw
    (by simp [Ex.driftCfg]) (by simp [Ex.driftCfg]) (by simp [Ex.driftCfg])
    (by intro d hd; simp [Ex.driftCfg] at hd)
    (fun k r r' _ _ hr => by
      simp only [List.getD_eq_getElem?_getD, hr 0 (by decide)])
    (by rw [ht]; norm_num) (by rw [ht, hs]; norm_num)
    (by rw [hm.eliteLen]; norm_num [Ex.driftCfg, selLen, pyInt, Num.truncZ]) hrun (by omega)
  refine ⟨e, b, h, P, fun u => ?_, hb.trans ?_⟩
  · obtain ⟨r', s', h1, h2, h3⟩ := hruns u
    exact ⟨r', s', h1, by rw [h2, hl], h3⟩
  · rw [hl, ht, show Int.toNat 2 = 2 from rfl]
    norm_num
    nlinarith [sq_nonneg (p - 1 / 2)]

end

end Verif
