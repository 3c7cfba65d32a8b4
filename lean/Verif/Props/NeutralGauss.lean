/-
C98: a variable that the cost function ignores loses its spread in UMDAc and PBIL without an elite.
-/
import Verif.Lemmas.NeutralGaussRun
import Verif.Props.Continuous
import Verif.Props.Loop

set_option linter.unusedSectionVars false

namespace Verif

open PyCost Spec MeasureTheory

/-- Runs of an algorithm with a normal model that differ in the random numbers `u` of variable `j`.  All
return, with the history `hist`; `M u` and `D u` are the mean and the deviation of variable `j` in the
final model.  Over independent standard normal numbers `u` the expectation of the mean is `m`, and that
of the squared deviation is `r v`, or at most `k lb²` more if there is a lower bound `lb > 0` for the
deviation. -/
structure Spec.LosesSpread {C : Type} (run : (ℕ × ℕ → ℝ) → Except PyErr
    (EdaResult (List ℝ) C × St (List ℝ) C (UniGauss ℝ))) (hist : List C) (j : ℕ) (m v r k lb : ℝ)
    (M D : (ℕ × ℕ → ℝ) → ℝ) : Prop where
  runs : ∀ u, ∃ res s, run u = .ok (res, s) ∧ res.history = hist ∧ s.pm.mean[j]? = some (M u) ∧
    s.pm.std[j]? = some (D u)
  measM : Measurable M
  measD : Measurable D
  memM : MemLp M 2 normalCells
  memD : MemLp D 2 normalCells
  nonneg : ∀ u, 0 ≤ D u
  mean : ∫ u, M u ∂normalCells = m
  low : r * v ≤ ∫ u, D u ^ 2 ∂normalCells
  high : ∫ u, D u ^ 2 ∂normalCells ≤ r * v + k * max lb 0 ^ 2

section
variable {base : BaseCfg ℝ (List ℝ)} {cfg : UMDAcCfg ℝ} {ρ : Rand (Draws ℝ)} {j : ℕ}
variable {e : Eda (List ℝ) (UniGauss ℝ) (Draws ℝ)} {b : UniGauss ℝ}
variable {C : Type} [PyCost C] {env : Env C} {f : ℕ → List ℝ → C} {ftol : C}
variable {w : ℕ → ℕ → ℝ} {E : ℕ → Option PyErr}
variable {learn : UniGauss ℝ → Gen (List ℝ) → Gen (List ℝ) → Draws ℝ → Except PyErr (UniGauss ℝ)}

theorem cont_wander (hv : env.Valid) (h : mkCont id base cfg learn = .ok (e, b))
    (hnv : base.nVars = cfg.base.nVars) (hsz : base.sizeGen = cfg.base.sizeGen) (hz : base.wNoise = none)
    (hdata : ∀ d, base.initData = some d → Rect base.nVars d.rows)
    (hl : LocLearn cfg.base.nVars w E learn) (hj : j < cfg.base.nVars)
    (hf : Ignores cfg.base.nVars j f) (ht1 : 1 ≤ e.truncLen) (ht2 : e.truncLen ≤ e.sizeGen)
    (he : e.eliteLen = 0) {res : EdaResult (List ℝ) C} {s : St (List ℝ) C (UniGauss ℝ)}
    (hrun : minimize env e f ftol b ρ = .ok (res, s)) (hlen : 2 ≤ res.history.length) :
    ∃ (m d : ℝ) (M D : (ℕ × ℕ → ℝ) → ℝ),
      (∀ s0 N s1 brk, start env e f b ρ = .ok s0 → e.mkNoise ρ.noise = .ok N →
        step env e f ftol ρ N 1 s0 = .ok (s1, brk) → s1.pm.mean[j]? = some m ∧ s1.pm.std[j]? = some d) ∧
      LosesSpread (fun u => minimize env e f ftol b (withColumn ρ j u)) res.history j m (d ^ 2)
        ((1 - 1 / (e.truncLen.toNat : ℝ)) ^ (res.history.length - 2)) e.truncLen.toNat cfg.lowerFactor M D ∧
      (cfg.lowerFactor ≤ 0 → ∫ u, (M u - m) ^ 2 ∂normalCells =
        (∑ i ∈ Finset.range e.truncLen.toNat, w e.truncLen.toNat i ^ 2) * e.truncLen.toNat *
          (1 - (1 - 1 / (e.truncLen.toNat : ℝ)) ^ (res.history.length - 2)) * d ^ 2) := by
  obtain ⟨h1, _, hb⟩ := mkCont_ok h
  have hm := mkEda_ok h1
  have hz : base.noiseAttr = 0 := by unfold BaseCfg.noiseAttr; rw [hz]
  obtain ⟨s0, N, hs0, hN, hl', hres⟩ := minimize_ok hrun
  have hh : res.history = s.history := by rw [hres]
  have hl0 : s0.history.length = 1 := by
    obtain ⟨_, _, _, _, _, ho⟩ := start_ok hs0
    rw [ho.history]; rfl
  rcases hk : (e.maxIter - 1).toNat with _ | k
  · rw [hk] at hl'
    obtain rfl := Except.ok.inj hl'
    rw [hh] at hlen
    omega
  rw [hk] at hl'
  unfold loop at hl'
  rcases hst : step env e f ftol ρ N 1 s0 with err | ⟨s1, brk⟩
  · rw [hst] at hl'; simp at hl'
  rw [hst] at hl'
  obtain ⟨S1, m, d, hd0, hpm, hpd, hS1, hd1⟩ := wandering_first (lb := cfg.lowerFactor) hv hm hnv hz hdata hl hj hf
    he hN (by rw [hb]; rfl) (by rw [hb]; rfl)
    (∑ i ∈ Finset.range e.truncLen.toNat, w e.truncLen.toNat i ^ 2) (k := (e.truncLen.toNat : ℝ))
    (by positivity) hs0 hst
  have hl1 : s1.history.length = 2 := by
    obtain ⟨_, _, _, _, _, _, ho⟩ := step_ok hst
    rw [ho.history, List.length_append, hl0]; rfl
  have hfin : ∃ t' S' M' D', s.history.length = t' + 2 ∧
      Wandering cfg j (t' + 1) cfg.lowerFactor m (d ^ 2)
        (∑ i ∈ Finset.range e.truncLen.toNat, w e.truncLen.toNat i ^ 2) e.truncLen.toNat
        ((1 - 1 / (e.truncLen.toNat : ℝ)) ^ t') s S' M' D' ∧
      ∀ u, loop env e f ftol (withColumn ρ j u) N (k + 1) 1 s0 = .ok (S' u) := by
    cases brk with
    | true =>
      obtain rfl := Except.ok.inj hl'
      refine ⟨0, S1, _, _, hl1, by simpa using hd1, fun u => ?_⟩
      unfold loop
      rw [hS1 u]
    | false =>
      obtain ⟨t', S', M', D', q1, q2, q4⟩ := wandering_loop hv hm hnv hsz hz hdata hl hj hf ht1 ht2 he hN rfl rfl
        k 0 s1 S1 (fun _ => m) (fun _ => d) hl1 (by simpa using hd1) hl'
      refine ⟨t', S', M', D', q1, q2, fun u => ?_⟩
      unfold loop
      rw [hS1 u]
      exact q4 u
  obtain ⟨t', S', M', D', q1, q2, q4⟩ := hfin
  have ht' : res.history.length - 2 = t' := by rw [hh, q1]; omega
  refine ⟨m, d, M', D', ?_, ⟨fun u => ?_, q2.measM, q2.measD, q2.memM, q2.memD, fun u => (q2.nonneg u).1,
    q2.emean, ?_, ?_⟩, ?_⟩
  · intro s0' N' s1' brk' h1 h2 h3
    rw [hs0] at h1
    obtain rfl := Except.ok.inj h1
    rw [hN] at h2
    obtain rfl := Except.ok.inj h2
    rw [hst] at h3
    simp only [Except.ok.injEq, Prod.mk.injEq] at h3
    rw [← h3.1]
    exact ⟨hpm, hpd⟩
  · refine ⟨⟨(S' u).bestInd, (S' u).bestCost, (S' u).history.length * e.sizeGen, (S' u).history⟩,
      S' u, ?_, ?_, q2.mean u, q2.std u⟩
    · unfold minimize
      have hs0' : start env e f b (withColumn ρ j u) = .ok s0 := hs0
      have hN' : e.mkNoise (withColumn ρ j u).noise = .ok N := hN
      rw [hs0', hN', hk]
      simp only [q4 u]
    · rw [hh]
      exact (q2.rel u).history
  · rw [ht']; exact q2.low
  · rw [ht']; exact q2.high
  · intro h0
    rw [ht']
    have h1 := q2.memM.integrable_sq
    have h2 : Integrable M' normalCells := q2.memM.integrable (by norm_num)
    have e1 : ∀ u, (M' u - m) ^ 2 = M' u ^ 2 - 2 * m * M' u + m ^ 2 := by intro u; ring
    simp only [e1]
    have h3 : Integrable (fun u => M' u ^ 2 - 2 * m * M' u) normalCells := h1.sub (h2.const_mul (2 * m))
    rw [integral_add h3 (integrable_const _), integral_sub h1 (h2.const_mul (2 * m)),
      integral_const_mul, q2.emean, q2.spread h0]
    simp only [integral_const, probReal_univ, smul_eq_mul, one_mul]
    ring

/-- **C98** for `UMDAc` in exact arithmetic, without white noise and elite, and a cost function that
ignores variable `j`.  Fix all random numbers of a run except those from which variable `j` is sampled,
and let these be independent and standard normal.  Then every run returns with the same history.  Let
`m`, `d` be the mean and deviation of variable `j` after the first iteration, and `q` the number of
selected individuals: the expected mean stays `m`, and the expected squared deviation shrinks in every
further iteration by the factor `1 - 1 / q`, down to at most `q` times the square of `lower_factor`.
With `lower_factor ≤ 0` what the deviation loses is the variance of the final mean: the variable
freezes at a random place. -/
theorem C98_UMDAc (hv : env.Valid) (h : UMDAc id Real.sqrt cfg = .ok (e, b)) (hz : cfg.base.wNoise = none)
    (hdata : ∀ d, cfg.base.initData = some d → Rect cfg.base.nVars d.rows) (hj : j < cfg.base.nVars)
    (hf : Ignores cfg.base.nVars j f) (ht1 : 1 ≤ e.truncLen) (ht2 : e.truncLen ≤ e.sizeGen)
    (he : e.eliteLen = 0) {res : EdaResult (List ℝ) C} {s : St (List ℝ) C (UniGauss ℝ)}
    (hrun : minimize env e f ftol b ρ = .ok (res, s)) (hlen : 2 ≤ res.history.length) :
    ∃ (m d : ℝ) (M D : (ℕ × ℕ → ℝ) → ℝ),
      (∀ s0 N s1 brk, start env e f b ρ = .ok s0 → e.mkNoise ρ.noise = .ok N →
        step env e f ftol ρ N 1 s0 = .ok (s1, brk) → s1.pm.mean[j]? = some m ∧ s1.pm.std[j]? = some d) ∧
      LosesSpread (fun u => minimize env e f ftol b (withColumn ρ j u)) res.history j m (d ^ 2)
        ((1 - 1 / (e.truncLen.toNat : ℝ)) ^ (res.history.length - 2)) e.truncLen.toNat cfg.lowerFactor M D ∧
      (cfg.lowerFactor ≤ 0 → ∫ u, (M u - m) ^ 2 ∂normalCells =
        (1 - (1 - 1 / (e.truncLen.toNat : ℝ)) ^ (res.history.length - 2)) * d ^ 2) := by
  obtain ⟨m, d, M, D, h1, h2, h3⟩ := cont_wander hv h rfl rfl hz hdata (locLearn_umdac (by omega)) hj hf ht1 ht2 he
    hrun hlen
  refine ⟨m, d, M, D, h1, h2, fun h0 => ?_⟩
  rw [h3 h0]
  have : (e.truncLen.toNat : ℝ) ≠ 0 := by
    have : e.truncLen.toNat ≠ 0 := by omega
    exact_mod_cast this
  simp only [Finset.sum_const, Finset.card_range, nsmul_eq_mul]
  field_simp

/-- **C98** for `PBIL`, where all `q` individuals of a generation are used: the deviation behaves in the
same way, but the mean moves further. -/
theorem C98_PBIL (hv : env.Valid) (h : PBIL id Real.sqrt cfg = .ok (e, b)) (hz : cfg.base.wNoise = none)
    (hdata : ∀ d, cfg.base.initData = some d → Rect cfg.base.nVars d.rows) (hj : j < cfg.base.nVars)
    (hf : Ignores cfg.base.nVars j f) (hq : 3 ≤ cfg.base.sizeGen)
    (he : e.eliteLen = 0) {res : EdaResult (List ℝ) C} {s : St (List ℝ) C (UniGauss ℝ)}
    (hrun : minimize env e f ftol b ρ = .ok (res, s)) (hlen : 2 ≤ res.history.length) :
    ∃ (m d : ℝ) (M D : (ℕ × ℕ → ℝ) → ℝ),
      (∀ s0 N s1 brk, start env e f b ρ = .ok s0 → e.mkNoise ρ.noise = .ok N →
        step env e f ftol ρ N 1 s0 = .ok (s1, brk) → s1.pm.mean[j]? = some m ∧ s1.pm.std[j]? = some d) ∧
      LosesSpread (fun u => minimize env e f ftol b (withColumn ρ j u)) res.history j m (d ^ 2)
        ((1 - 1 / (cfg.base.sizeGen : ℝ)) ^ (res.history.length - 2)) cfg.base.sizeGen cfg.lowerFactor M D ∧
      (cfg.lowerFactor ≤ 0 → ∫ u, (M u - m) ^ 2 ∂normalCells =
        (1 + (3 * cfg.base.sizeGen - 1) * cfg.base.alpha ^ 2) *
          (1 - (1 - 1 / (cfg.base.sizeGen : ℝ)) ^ (res.history.length - 2)) * d ^ 2) := by
  have hm := mkEda_ok (mkCont_ok h).1
  have hsel : e.truncLen = cfg.base.sizeGen := by
    rw [hm.truncLen]
    show selLen (id : ℝ → ℝ) cfg.base.sizeGen 1 = _
    have h0 : (0 : ℝ) ≤ (cfg.base.sizeGen : ℝ) := by exact_mod_cast (by omega : 0 ≤ cfg.base.sizeGen)
    unfold selLen
    simp only [id, mul_one, pyInt]
    simp [Num.truncZ, h0]
  have hcast : ((e.truncLen.toNat : ℕ) : ℝ) = (cfg.base.sizeGen : ℝ) := by
    have : ((e.truncLen.toNat : ℕ) : ℤ) = cfg.base.sizeGen := by rw [hsel]; omega
    exact_mod_cast congrArg (Int.cast : ℤ → ℝ) this
  have hs : e.sizeGen = cfg.base.sizeGen := hm.sizeGen
  obtain ⟨m, d, M, D, h1, h2, h3⟩ := cont_wander (base := { cfg.base with alpha := 1 }) hv h rfl rfl hz hdata
    (locLearn_pbil (by omega) cfg.base.alpha) hj hf (by omega) (by omega) he hrun hlen
  rw [hcast] at h2
  refine ⟨m, d, M, D, h1, h2, fun h0 => ?_⟩
  rw [h3 h0, pbilWeight_square (by omega), hcast]
  have : (cfg.base.sizeGen : ℝ) ≠ 0 := by
    have : cfg.base.sizeGen ≠ 0 := by omega
    exact_mod_cast this
  field_simp
  ring

/-- **C98**: the probability that the deviation of the variable is still at least `ε`. -/
theorem C98_lost {run : (ℕ × ℕ → ℝ) → Except PyErr (EdaResult (List ℝ) C × St (List ℝ) C (UniGauss ℝ))}
    {hist : List C} {m v r k lb : ℝ} {M D : (ℕ × ℕ → ℝ) → ℝ} (h : LosesSpread run hist j m v r k lb M D)
    {ε : ℝ} (hε : 0 < ε) :
    normalCells.real {u | ∃ res s x, run u = .ok (res, s) ∧ s.pm.std[j]? = some x ∧ ε ≤ x} ≤
      (r * v + k * max lb 0 ^ 2) / ε ^ 2 := by
  have e1 : {u | ∃ res s x, run u = .ok (res, s) ∧ s.pm.std[j]? = some x ∧ ε ≤ x} = {u | ε ^ 2 ≤ D u ^ 2} := by
    ext u
    simp only [Set.mem_ofPred_eq]
    obtain ⟨res, s, h1, _, _, h4⟩ := h.runs u
    constructor
    · rintro ⟨res', s', x, h1', h4', hx⟩
      rw [h1] at h1'
      obtain ⟨_, rfl⟩ := Prod.mk.inj (Except.ok.inj h1')
      rw [h4] at h4'
      obtain rfl := Option.some.inj h4'
      exact pow_le_pow_left₀ hε.le hx 2
    · intro hx
      exact ⟨res, s, D u, h1, h4, le_of_sq_le_sq hx (h.nonneg u)⟩
  rw [e1, le_div_iff₀ (by positivity), mul_comm]
  exact (mul_meas_ge_le_integral_of_nonneg (Filter.Eventually.of_forall fun u => sq_nonneg (D u))
    h.memD.integrable_sq (ε ^ 2)).trans h.high

end

/-! ### Concrete cases -/

namespace Ex

/-- Two variables in `[0, 1]`, 4 individuals of which `UMDAc` selects 2, 12 generations, no elite, no
lower bound for the deviation. -/
noncomputable def fade : UMDAcCfg ℝ :=
  { base := { sizeGen := 4, maxIter := 12, deadIter := 0, nVars := 2, alpha := 1/2,
              eliteFactor := 0, parallel := false, initData := none, wNoise := none }
    lower := .scalar 0, upper := .scalar 1, vector := none, lowerFactor := 0 }

theorem fade_usable : InitUsable fade := by
  show ∀ bd, bd = Bound.scalar (0 : ℝ) ∨ bd = Bound.scalar 1 → _
  rintro bd (rfl | rfl) <;> trivial

theorem fade_valid : ContValid realEnv.cpu fade.base fade 4 (selLen id fade.base.sizeGen fade.base.alpha) where
  dead := by show (0 : ℤ) ≤ 12; norm_num
  size := le_refl _
  pos := by norm_num
  trunc := by show 1 ≤ selLen (id : ℝ → ℝ) 4 (1/2); rw [selLen_half]; norm_num
  cpu := by intro h; exact absurd h (by simp [fade])
  noise := .inl (by simp [BaseCfg.noiseAttr, fade])
  init := fun _ => fade_usable
  build := (initUsable_sample (fl := id) fade_usable (by show (0 : ℤ) ≤ 4; norm_num)).1
  data := by intro d hd; simp [fade] at hd

theorem fade_valid_pbil : ContValid realEnv.cpu { fade.base with alpha := 1 } fade 4
    (selLen id fade.base.sizeGen (1 : ℝ)) where
  dead := by show (0 : ℤ) ≤ 12; norm_num
  size := le_refl _
  pos := by norm_num
  trunc := by show 1 ≤ selLen (id : ℝ → ℝ) 4 1; rw [selLen_one]; norm_num
  cpu := by intro h; exact absurd h (by simp [fade])
  noise := .inl (by simp [BaseCfg.noiseAttr, fade])
  init := fun _ => fade_usable
  build := (initUsable_sample (fl := id) fade_usable (by show (0 : ℤ) ≤ 4; norm_num)).1
  data := by intro d hd; simp [fade] at hd

end Ex

/-- C98, `UMDAc`: a cost function that only looks at the first variable.  Whatever the other random
numbers, after 12 generations the second variable has kept a quarter of its first deviation `d` with
probability at most `1 / 64`. -/
example (ρ : Rand (Draws ℝ)) (ftol : ℝ) : ∃ e b, UMDAc id Real.sqrt Ex.fade = .ok (e, b) ∧
    ∃ (m d : ℝ) (M D : (ℕ × ℕ → ℝ) → ℝ) (hist : List ℝ), hist.length = 12 ∧
      LosesSpread (fun u => minimize realEnv e (fun _ r => r.getD 0 0) ftol b (withColumn ρ 1 u)) hist 1 m
        (d ^ 2) (1 / 1024) 2 0 M D ∧
      ∫ u, (M u - m) ^ 2 ∂normalCells = 1023 / 1024 * d ^ 2 ∧
      (0 < d → normalCells.real {u | ∃ res s x,
        minimize realEnv e (fun _ r => r.getD 0 0) ftol b (withColumn ρ 1 u) = .ok (res, s) ∧
          s.pm.std[1]? = some x ∧ d / 4 ≤ x} ≤ 1 / 64) := by
  obtain ⟨e, b, h, res, s, hrun⟩ := C53_UMDAc_never_raises (fl := id) (cfg := Ex.fade)
    (env := realEnv) (f := fun _ r => r.getD 0 0) (ftol := ftol) (ρ := ρ) realEnv_valid real_isSqrt
    Ex.fade_valid (fun _ _ => field_isNum _)
  have hm := mkEda_ok (mkCont_ok h).1
  have hl : res.history.length = 12 := by
    have h1 := (C06_dead_iter hrun).2.2 (by rw [hm.deadIter]; simp [Ex.fade])
    rw [hm.maxIter] at h1
    simp only [Ex.fade] at h1
    norm_num at h1
    exact_mod_cast h1
  have ht : e.truncLen = 2 := by rw [hm.truncLen]; exact Ex.selLen_half
  have hs : e.sizeGen = 4 := by rw [hm.sizeGen]; rfl
  obtain ⟨m, d, M, D, _, h2, h3⟩ := C98_UMDAc (j := 1) realEnv_valid h rfl (by intro d hd; simp [Ex.fade] at hd)
    (by simp [Ex.fade]) (fun k r r' _ _ hr => by simp only [List.getD_eq_getElem?_getD, hr 0 (by decide)])
    (by rw [ht]; norm_num) (by rw [ht, hs]; norm_num)
    (by rw [hm.eliteLen]; norm_num [Ex.fade, selLen, pyInt, Num.truncZ]) hrun (by omega)
  have hr : (1 - 1 / ((e.truncLen.toNat : ℕ) : ℝ)) ^ (res.history.length - 2) = 1 / 1024 := by
    rw [hl, ht, show Int.toNat 2 = 2 from rfl]; norm_num
  rw [hr] at h2 h3
  rw [ht] at h2
  have h2 : LosesSpread (fun u => minimize realEnv e (fun _ r => r.getD 0 0) ftol b (withColumn ρ 1 u))
    res.history 1 m (d ^ 2) (1 / 1024) 2 0 M D := h2
  refine ⟨e, b, h, m, d, M, D, res.history, hl, h2, ?_, fun hd => (C98_lost h2 (by positivity)).trans ?_⟩
  · rw [h3 (le_refl _)]; norm_num
  · rw [max_self]; field_simp; linarith

/-- C98, `PBIL` with learning rate `1 / 2`: after 12 generations the expected squared deviation of the
second variable is `(3/4)^10` of the first one. -/
example (ρ : Rand (Draws ℝ)) (ftol : ℝ) : ∃ e b, PBIL id Real.sqrt Ex.fade = .ok (e, b) ∧
    ∃ (m d : ℝ) (M D : (ℕ × ℕ → ℝ) → ℝ) (hist : List ℝ), hist.length = 12 ∧
      LosesSpread (fun u => minimize realEnv e (fun _ r => r.getD 0 0) ftol b (withColumn ρ 1 u)) hist 1 m
        (d ^ 2) ((3 / 4) ^ 10) 4 0 M D ∧
      ∫ u, (M u - m) ^ 2 ∂normalCells = 15 / 4 * (1 - (3 / 4) ^ 10) * d ^ 2 := by
  obtain ⟨e, b, h, res, s, hrun⟩ := C53_PBIL_never_raises (fl := id) (cfg := Ex.fade)
    (env := realEnv) (f := fun _ r => r.getD 0 0) (ftol := ftol) (ρ := ρ) realEnv_valid real_isSqrt (m := 4)
    (by norm_num) (by show 2 ≤ selLen (id : ℝ → ℝ) 4 1; rw [Ex.selLen_one]; norm_num)
    Ex.fade_valid_pbil (fun _ _ => field_isNum _)
  have hm := mkEda_ok (mkCont_ok h).1
  have hl : res.history.length = 12 := by
    have h1 := (C06_dead_iter hrun).2.2 (by rw [hm.deadIter]; simp [Ex.fade])
    rw [hm.maxIter] at h1
    simp only [Ex.fade] at h1
    norm_num at h1
    exact_mod_cast h1
  obtain ⟨m, d, M, D, _, h2, h3⟩ := C98_PBIL (j := 1) realEnv_valid h rfl (by intro d hd; simp [Ex.fade] at hd)
    (by simp [Ex.fade]) (fun k r r' _ _ hr => by simp only [List.getD_eq_getElem?_getD, hr 0 (by decide)])
    (by show (3 : ℤ) ≤ 4; norm_num)
    (by rw [hm.eliteLen]; norm_num [Ex.fade, selLen, pyInt, Num.truncZ]) hrun (by omega)
  have hc : (Ex.fade.base.sizeGen : ℝ) = 4 := by show (((4 : ℤ)) : ℝ) = 4; norm_num
  rw [hl, hc] at h2 h3
  refine ⟨e, b, h, m, d, M, D, res.history, hl, ?_, ?_⟩
  · have e1 : (1 - 1 / (4 : ℝ)) ^ (12 - 2) = (3 / 4) ^ 10 := by norm_num
    rw [e1] at h2
    exact h2
  · rw [h3 (le_refl _)]
    have : Ex.fade.base.alpha = 1 / 2 := rfl
    rw [this]
    norm_num
    try ring

end Verif
