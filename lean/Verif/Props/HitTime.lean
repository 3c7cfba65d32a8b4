/-
C84: how long UMDAd with probabilities kept away from 0 and 1 needs to find an optimum.
-/
import Verif.Props.Hit

set_option linter.unusedSectionVars false

namespace Verif

open PyCost Spec MeasureTheory

namespace Spec

open Classical in
/-- The number of generations that were evaluated before the first one that contains `r` (all
generations of the run, if none does). -/
noncomputable def generationsBefore {R C σ : Type} (r : R) (s : St R C σ) : ℕ :=
  (s.log.takeWhile (fun batch => decide (∀ c, (r, c) ∉ batch))).length

/-- The same for a run: 0 if the run raised. -/
noncomputable def waiting {R C σ : Type} (r : R) :
    Except PyErr (EdaResult R C × St R C σ) → ℕ
  | .ok (_, s) => generationsBefore r s
  | .error _ => 0

end Spec

section
variable {fl : ℝ → ℝ} {cfg : UMDAdCfg ℝ} {env : Env ℝ} {f : ℕ → List ℝ → ℝ} {ftol : ℝ}
variable {ρ : Rand (Draws ℝ)} {e : Eda (List ℝ) (UniBin ℝ) (Draws ℝ)} {b : UniBin ℝ}

theorem takeWhile_false {α : Type} {p : α → Bool} {l : List α} {t : ℕ} {a : α}
    (h : l[t]? = some a) (ha : p a = false) : (l.takeWhile p).length ≤ t := by
  induction l generalizing t with
  | nil => simp
  | cons x xs ih =>
    cases t with
    | zero =>
      simp only [List.getElem?_cons_zero, Option.some.injEq] at h
      subst h
      simp [ha]
    | succ t =>
      rw [List.takeWhile_cons]
      split
      · have := ih (t := t) (by simpa using h)
        simp only [List.length_cons]
        omega
      · simp

theorem visited_log_length {R C σ Ω : Type} [PyCost C] {env : Env C} {e : Eda R σ Ω} {f : ℕ → R → C}
    {ftol : C} {pm : σ} {ρ : Rand Ω} {res : EdaResult R C} {s : St R C σ}
    (h : minimize env e f ftol pm ρ = .ok (res, s)) : s.log.length = res.history.length := by
  obtain ⟨_, _, _, _, _, hres⟩ := minimize_ok h
  rw [hres]
  refine minimize_inv (fun s => s.log.length = s.history.length) ?_ ?_ h
  · intro s0 h0
    obtain ⟨_, _, _, _, _, hs⟩ := start_ok h0
    rw [hs.log, hs.history]; rfl
  · intro noise t s s' b hi _ hst
    obtain ⟨_, _, _, _, _, _, hs⟩ := step_ok hst
    rw [hs.log, hs.history]; simp [hi]

/-- **C84** the expected number of generations that `UMDAd` evaluates before the first one that contains a
given binary string (an optimum, say) is at most `1 / (1 - (1 - q^n)^size_gen)`, for every cost function,
every `max_iter` and `dead_iter`, all draws outside sampling, and independent sampling draws with
`q` as in C64. -/
theorem C84_expected_generations (hv : env.Valid) (h : UMDAd fl cfg = .ok (e, b)) (hw : cfg.WF)
    (U : Measure ℝ) [IsProbabilityMeasure U] {q : ENNReal} (hU : Spread U cfg.lower cfg.upper q)
    {target : List ℝ} (htar : BinaryRow cfg.base.nVars target) :
    ∫⁻ ω, (waiting target (minimize env e f ftol b (withDraws ρ ω)) : ENNReal) ∂(iid U) ≤
      (1 - (1 - q ^ cfg.base.nVars) ^ cfg.base.sizeGen.toNat)⁻¹ := by
  classical
  have key : ∀ ω (T : ℕ), T < waiting target (minimize env e f ftol b (withDraws ρ ω)) →
      ω ∈ missSet cfg target (T + 1) := by
    intro ω T hT
    cases hrun : minimize env e f ftol b (withDraws ρ ω) with
    | error err => rw [hrun] at hT; simp [waiting] at hT
    | ok x =>
    obtain ⟨res, s⟩ := x
    rw [hrun] at hT
    have hT : T < generationsBefore target s := hT
    rintro ⟨t, i⟩ hti hA'
    simp only [Finset.coe_product, Finset.coe_Ico, Finset.coe_range, Set.mem_prod, Set.mem_Ico,
      Set.mem_Iio] at hti
    have hlen : generationsBefore target s ≤ s.log.length := by
      unfold generationsBefore
      exact (List.takeWhile_prefix _).length_le
    rw [visited_log_length hrun] at hlen
    obtain ⟨batch, hb, c, hc⟩ := umdad_box hv h hw hrun htar (t := t) (i := i) hti.1.1 (by omega)
      (by omega) (mem_targetBox htar hA')
    have : generationsBefore target s ≤ t := by
      unfold generationsBefore
      refine takeWhile_false hb ?_
      simp only [decide_eq_false_iff_not, not_forall, not_not]
      exact ⟨c, hc⟩
    omega
  calc ∫⁻ ω, (waiting target (minimize env e f ftol b (withDraws ρ ω)) : ENNReal) ∂(iid U)
      ≤ ∫⁻ ω, ∑' T : ℕ, (missSet cfg target (T + 1)).indicator 1 ω ∂(iid U) := by
        refine lintegral_mono (fun ω => ?_)
        set w := waiting target (minimize env e f ftol b (withDraws ρ ω)) with hw'
        calc (w : ENNReal) = ∑ _T ∈ Finset.range w, 1 := by simp
          _ = ∑ T ∈ Finset.range w, (missSet cfg target (T + 1)).indicator 1 ω := by
              refine Finset.sum_congr rfl (fun T hT => ?_)
              rw [Set.indicator_of_mem (key ω T (by rw [← hw']; exact Finset.mem_range.1 hT))]
              rfl
          _ ≤ _ := ENNReal.sum_le_tsum _
    _ = ∑' T : ℕ, iid U (missSet cfg target (T + 1)) := by
        rw [lintegral_tsum (fun T => (measurable_one.indicator
          (missSet_measurable target (T + 1))).aemeasurable)]
        congr 1
        funext T
        rw [lintegral_indicator_one (missSet_measurable target (T + 1))]
    _ ≤ ∑' T : ℕ, ((1 - q ^ cfg.base.nVars) ^ cfg.base.sizeGen.toNat) ^ T := by
        refine ENNReal.tsum_le_tsum (fun T => ?_)
        refine (missSet_measure U hU target (T + 1)).trans ?_
        rw [Nat.add_sub_cancel, mul_comm, pow_mul]
    _ = _ := ENNReal.tsum_geometric _

/-- **C84** the bound is finite whenever `q > 0` (e.g. uniform draws and `0 < lower_bound`,
`upper_bound < 1`) and there is at least one individual. -/
theorem C84_finite {q : ENNReal} (hq : q ≠ 0) {n N : ℕ} (hN : 1 ≤ N) :
    (1 - (1 - q ^ n) ^ N)⁻¹ ≠ ⊤ := by
  rw [Ne, ENNReal.inv_eq_top, tsub_eq_zero_iff_le, not_le]
  have h1 : 1 - q ^ n < 1 := ENNReal.sub_lt_self ENNReal.one_ne_top one_ne_zero (pow_ne_zero _ hq)
  exact pow_lt_one₀ bot_le h1 (by omega)

/-- **C84** for uniform draws. -/
theorem C84_uniform (hv : env.Valid) (h : UMDAd fl cfg = .ok (e, b)) (hw : cfg.WF)
    (hlo : 0 < cfg.lower) (hlu : cfg.lower < cfg.upper) (hup : cfg.upper < 1)
    (hsize : 1 ≤ cfg.base.sizeGen)
    {target : List ℝ} (htar : BinaryRow cfg.base.nVars target) {q : ℝ}
    (hq : q = min cfg.lower (1 - cfg.upper)) :
    ∫⁻ ω, (waiting target (minimize env e f ftol b (withDraws ρ ω)) : ENNReal) ∂(iid uniform01) ≤
      ENNReal.ofReal (1 - (1 - q ^ cfg.base.nVars) ^ cfg.base.sizeGen.toNat)⁻¹ := by
  have hq0 : 0 < q := by rw [hq]; exact lt_min hlo (by linarith)
  have hq1 : q ≤ 1 := by
    rw [hq]; exact (min_le_left _ _).trans (hlu.trans hup).le
  have hsp := uniform_spread (hlu.trans hup).le (hlo.trans hlu).le
  rw [← hq] at hsp
  refine (C84_expected_generations hv h hw uniform01 hsp htar).trans ?_
  have hp0 : 0 < q ^ cfg.base.nVars := pow_pos hq0 _
  have hp1 : q ^ cfg.base.nVars ≤ 1 := pow_le_one₀ hq0.le hq1
  have e1 : 1 - ENNReal.ofReal q ^ cfg.base.nVars = ENNReal.ofReal (1 - q ^ cfg.base.nVars) := by
    rw [← ENNReal.ofReal_pow hq0.le, ENNReal.ofReal_sub _ hp0.le, ENNReal.ofReal_one]
  have h0 : 0 ≤ 1 - q ^ cfg.base.nVars := by linarith
  have e2 : 1 - ENNReal.ofReal (1 - q ^ cfg.base.nVars) ^ cfg.base.sizeGen.toNat =
      ENNReal.ofReal (1 - (1 - q ^ cfg.base.nVars) ^ cfg.base.sizeGen.toNat) := by
    rw [← ENNReal.ofReal_pow h0, ENNReal.ofReal_sub _ (pow_nonneg h0 _), ENNReal.ofReal_one]
  rw [e1, e2]
  rw [ENNReal.ofReal_inv_of_pos]
  have : (1 - q ^ cfg.base.nVars) ^ cfg.base.sizeGen.toNat < 1 :=
    pow_lt_one₀ h0 (by linarith) (by omega)
  linarith

/-- C84: with the default bounds, 4 individuals of 2 bits and any cost function, the string of ones is
expected within 7 generations. -/
example : ∃ e b, UMDAd id realCfg = .ok (e, b) ∧ ∀ (f : ℕ → List ℝ → ℝ) (ftol : ℝ) (ρ : Rand (Draws ℝ)),
    ∫⁻ ω, (waiting [1, 1] (minimize realEnv e f ftol b (withDraws ρ ω)) : ENNReal) ∂(iid uniform01) ≤ 7 := by
  have hw : realCfg.WF := ⟨by intro v hv; simp [realCfg] at hv, by intro d hd; simp [realCfg] at hd⟩
  obtain ⟨e, b, h, _⟩ := C53_UMDAd_never_raises (fl := id) (cfg := realCfg) (env := realEnv)
    (f := fun _ _ => (0 : ℝ)) (ftol := 0)
    (ρ := ⟨fun _ _ => 0, fun _ _ => 0, fun _ _ _ => 0, fun _ _ _ => 0⟩) realEnv_valid hw
    (by simp [realCfg]) (by norm_num [realCfg]) (by intro d hd; simp [realCfg] at hd)
    (by norm_num [realCfg]) (by intro h; simp [realCfg] at h)
    (by norm_num [realCfg, selLen, pyInt, Num.truncZ]) (by intro k r; simp [IsNum, PyCost.eq])
  refine ⟨e, b, h, fun f ftol ρ => ?_⟩
  refine (C84_uniform (q := 1 / 5) realEnv_valid h hw (by norm_num [realCfg]) (by norm_num [realCfg])
    (by norm_num [realCfg]) (by norm_num [realCfg]) ⟨rfl, by simp⟩
    (by norm_num [realCfg])).trans ?_
  rw [show (7 : ENNReal) = ENNReal.ofReal 7 by simp]
  refine ENNReal.ofReal_le_ofReal ?_
  norm_num [realCfg, show Int.toNat 4 = 4 from rfl]

end

end Verif
