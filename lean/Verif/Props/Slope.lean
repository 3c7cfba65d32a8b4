/-
C99: without elite and without a lower bound for the deviation, `UMDAc` on a slope and `PBIL` on any cost function
stay near the first generation for ever, with a probability that does not depend on the number of generations.
-/
import Verif.Lemmas.SlopeRun
import Verif.Props.Converge
import Verif.Props.NeutralGauss
import Verif.Props.Stuck

set_option linter.unusedSectionVars false

namespace Verif

open PyCost Spec MeasureTheory ProbabilityTheory

namespace Spec

/-- The run evaluated an individual whose variable `j` is at least `r` away from `c`. -/
def EvaluatedAway {C σ : Type} (j : ℕ) (c r : ℝ) (s : St (List ℝ) C σ) : Prop :=
  ∃ p ∈ s.log.flatten, r ≤ |p.1.getD j 0 - c|

/-- Generation number `t` (the first is number 0) contains two individuals that differ by at least `ε` in
variable `j`. -/
def Scattered {C σ : Type} (t j : ℕ) (ε : ℝ) (s : St (List ℝ) C σ) : Prop :=
  ∃ batch, s.log[t]? = some batch ∧ ∃ p ∈ batch, ∃ p' ∈ batch, ε ≤ |p.1.getD j 0 - p'.1.getD j 0|

end Spec

section learn
variable {n : ℕ}

theorem addRows_zero (P : List (Fin n → ℝ)) : addRows (noiseTable (.zero : Noise ℝ)) P = P := by
  unfold addRows noiseTable
  apply List.ext_getElem?
  intro i
  simp only [add_zero, List.getElem?_mapIdx]
  cases P[i]? <;> rfl

theorem learnDev_zero {lb : ℝ} (hlb : lb ≤ 0) (P : List (Fin n → ℝ)) (j : Fin n) :
    learnDev lb (noiseTable (.zero : Noise ℝ)) P j = Real.sqrt (Spec.variance (P.map fun r => r j)) := by
  unfold learnDev
  rw [addRows_zero, max_eq_left (hlb.trans (Real.sqrt_nonneg _))]

theorem mean_near {l : List ℝ} (hl : l ≠ []) {c B : ℝ} (hB : 0 ≤ B) (h : ∀ x ∈ l, |x - c| ≤ B) :
    |Spec.mean l - c| ≤ B := by
  have := mean_affine hl 1 (-c)
  rw [one_mul, ← sub_eq_add_neg] at this
  rw [← this]
  refine mean_abs hB fun x hx => ?_
  obtain ⟨y, hy, rfl⟩ := List.mem_map.1 hx
  rw [one_mul, ← sub_eq_add_neg]
  exact h y hy

theorem learnMean_near {P : List (Fin n → ℝ)} (hP : P ≠ []) {j : Fin n} {c B : ℝ} (hB : 0 ≤ B)
    (h : ∀ r ∈ P, |r j - c| ≤ B) : |learnMean (noiseTable (.zero : Noise ℝ)) P j - c| ≤ B := by
  unfold learnMean
  rw [addRows_zero]
  refine mean_near (by simpa using hP) hB fun x hx => ?_
  obtain ⟨r, hr, rfl⟩ := List.mem_map.1 hx
  exact h r hr

theorem learnShift_near {P : List (Fin n → ℝ)} (hP : 2 ≤ P.length) {alpha : ℝ} {j : Fin n} {c B : ℝ} (hB : 0 ≤ B)
    (h : ∀ r ∈ P, |r j - c| ≤ B) :
    |learnShift alpha (noiseTable (.zero : Noise ℝ)) P j - c| ≤ (|1 - alpha| + 3 * |alpha|) * B := by
  have hm := learnMean_near (j := j) (P := P) (by rintro rfl; simp at hP) hB h
  have hget : ∀ i < P.length, |P.getD i default j - c| ≤ B := by
    intro i hi
    rw [List.getD_eq_getElem?_getD, List.getElem?_eq_getElem hi, Option.getD_some]
    exact h _ (List.getElem_mem hi)
  have h0 := hget 0 (by omega)
  have h1 := hget 1 (by omega)
  have h2 := hget (P.length - 1) (by omega)
  unfold learnShift
  rw [addRows_zero]
  set M := learnMean (noiseTable (.zero : Noise ℝ)) P j
  set x := P.getD 0 default j
  set y := P.getD 1 default j
  set w := P.getD (P.length - 1) default j
  have e : (1 - alpha) * M + alpha * (x + y - w) - c =
      (1 - alpha) * (M - c) + alpha * ((x - c) + (y - c) - (w - c)) := by ring
  rw [e, add_mul]
  refine (abs_add_le _ _).trans (add_le_add ?_ ?_)
  · rw [abs_mul]; exact mul_le_mul_of_nonneg_left hm (abs_nonneg _)
  · rw [abs_mul, mul_comm 3, mul_assoc]
    refine mul_le_mul_of_nonneg_left ?_ (abs_nonneg _)
    refine (abs_sub _ _).trans ?_
    linarith [abs_add_le (x - c) (y - c)]

theorem dev_near {l : List ℝ} (hl : l ≠ []) {c B : ℝ} (hB : 0 ≤ B) (h : ∀ x ∈ l, |x - c| ≤ B) :
    Real.sqrt (Spec.variance l) ≤ B := by
  rw [Real.sqrt_le_left hB]
  have e := variance_affine hl 1 (-c)
  rw [one_mul, one_mul] at e
  rw [← e, variance_moments (by simpa using hl)]
  have hle : Spec.mean ((l.map fun x => 1 * x + -c).map fun x => x ^ 2) ≤ B ^ 2 := by
    refine (le_abs_self _).trans (mean_abs (by positivity) fun x hx => ?_)
    obtain ⟨y, hy, rfl⟩ := List.mem_map.1 hx
    obtain ⟨w, hw, rfl⟩ := List.mem_map.1 hy
    rw [abs_of_nonneg (sq_nonneg _), ← sq_abs, one_mul, ← sub_eq_add_neg]
    exact pow_le_pow_left₀ (abs_nonneg _) (h w hw) 2
  unfold Spec.mean at hle
  rw [List.length_map] at hle
  linarith [sq_nonneg (Spec.mean (l.map fun x => 1 * x + -c))]

end learn

section general
variable {fl : ℝ → ℝ} {cfg : UMDAcCfg ℝ} {env : Env ℝ} {g : List ℝ → ℝ} {ftol : ℝ} {ρ : Rand (Draws ℝ)}

/-- The run of a configuration as a function of the draws (whatever `max_iter` and `dead_iter`). -/
theorem cont_pure (hv : env.Valid) {base : BaseCfg ℝ (List ℝ)} {m q : ℕ} (hnv : base.nVars = cfg.base.nVars)
    {learn : UniGauss ℝ → Gen (List ℝ) → Gen (List ℝ) → Draws ℝ → Except PyErr (UniGauss ℝ)}
    (hval : ContValid env.cpu base cfg m (selLen fl base.sizeGen base.alpha)) (hnoise : base.noiseAttr = 0)
    (hq : selLen fl base.sizeGen base.alpha = q) (hel : selLen fl base.sizeGen base.eliteFactor = 0) (hqm : q ≤ m)
    {mu sd : List (Fin cfg.base.nVars → ℝ) → Fin cfg.base.nVars → ℝ}
    (hl : Learner cfg.base.nVars cfg.lowerFactor learn (.zero : Noise ℝ) mu sd) {j : Fin cfg.base.nVars} {κ c B : ℝ}
    (hsh : ∀ g0, PureRun.Shrinks ⟨env.argsort, fun x => g (List.ofFn x), q, 0, cfg.base.sizeGen.toNat, mu, sd, g0,
      g0.take 1⟩ j q κ)
    {e0 : Eda (List ℝ) (UniGauss ℝ) (Draws ℝ)} {b0 : UniGauss ℝ} (hmk0 : mkCont fl base cfg learn = .ok (e0, b0))
    (hB : 0 ≤ B) (hfirst : ∀ gen, e0.initGen ρ.init = .ok gen → ∀ r ∈ gen.rows, |r.getD j 0 - c| ≤ B) :
    ∃ p : PureRun cfg.base.nVars, p.Shrinks j q κ ∧ p.size = cfg.base.sizeGen.toNat ∧
      |p.mu (p.sel (fun _ _ _ => 0) 0) j - c| ≤ κ * B ∧ p.dev j (fun _ _ _ => 0) 0 ≤ B ∧
      (∀ x ∈ p.g0, |x j - c| ≤ B) ∧
      ∀ (ω : ℕ → Draws ℝ) (k d : ℤ) (e : Eda (List ℝ) (UniGauss ℝ) (Draws ℝ)) (b : UniGauss ℝ) res s,
        mkCont fl { base with maxIter := k, deadIter := d }
          { cfg with base := { cfg.base with maxIter := k, deadIter := d } } learn = .ok (e, b) →
        minimize env e (fun _ => g) ftol b { ρ with sample := ω } = .ok (res, s) →
        ∀ t batch, s.log[t]? = some batch → batch.map Prod.fst = (p.pops ω t).1.map List.ofFn := by
  have hT := hval.trunc
  rw [hq] at hT
  obtain ⟨gen0, h1, h2, h3, h4⟩ := first_gen (fl := fl) hval hnv ρ.init
  have hinit0 : e0.initGen ρ.init = .ok gen0 := by
    have hm' := mkEda_ok (mkCont_ok hmk0).1
    cases hd : base.initData with
    | none => rw [hm'.initNone hd]; exact h3 hd
    | some d => rw [(hm'.initSome d hd).2, h4 d hd]
  let G0 : List (Fin cfg.base.nVars → ℝ) := gen0.rows.map fun r j => r.getD j 0
  have hG0 : gen0.rows = G0.map List.ofFn := by
    rw [List.map_map]
    refine ((List.map_congr_left fun r hr => ?_).trans (List.map_id _)).symm
    simp only [Function.comp, id_eq]
    apply List.ext_getElem?
    intro j
    have := h1 r hr
    rw [List.getElem?_ofFn]
    by_cases hj : j < cfg.base.nVars
    · simp [hj, List.getD_eq_getElem?_getD, this]
    · simp [hj, this]
  have hnear : ∀ x ∈ G0, |x j - c| ≤ B := by
    intro x hx
    obtain ⟨r, hr, rfl⟩ := List.mem_map.1 hx
    exact hfirst gen0 hinit0 r hr
  let p : PureRun cfg.base.nVars :=
    ⟨env.argsort, fun x => g (List.ofFn x), q, 0, cfg.base.sizeGen.toNat, mu, sd, G0, G0.take 1⟩
  have hp : p.Shrinks j q κ := hsh G0
  have hsel0 : (p.sel (fun _ _ _ => 0) 0).length = q ∧ ∀ x ∈ p.sel (fun _ _ _ => 0) 0, |x j - c| ≤ B := by
    obtain ⟨W, w1, _, w3⟩ := p.pick_sorted hv.argsort (G0 ++ G0.take 1)
    have e : p.sel (fun _ _ _ => 0) 0 = W.take q := by
      have := w3 (q : ℤ) (by positivity)
      rw [Int.toNat_natCast] at this
      exact this
    have hG0l : G0.length = gen0.rows.length := by simp [G0]
    refine ⟨?_, fun x hx => ?_⟩
    · rw [e, List.length_take, w1.length_eq, List.length_append]; omega
    · rw [e] at hx
      have := w1.subset (List.mem_of_mem_take hx)
      rcases List.mem_append.1 this with h | h
      · exact hnear x h
      · exact hnear x (List.mem_of_mem_take h)
  refine ⟨p, hp, rfl, hp.mu _ hsel0.1 c B hB hsel0.2, ?_, hnear, ?_⟩
  · unfold PureRun.dev
    rw [hp.sd]
    refine dev_near (c := c) ?_ hB fun x hx => ?_
    · intro h0
      have := congrArg List.length h0
      rw [List.length_map, hsel0.1, List.length_nil] at this
      omega
    · obtain ⟨r, hr, rfl⟩ := List.mem_map.1 hx
      exact hsel0.2 r hr
  intro ω k d e b res s hmk hrun t batch hb
  obtain ⟨he, _, hbb⟩ := mkCont_ok hmk
  have hm' := mkEda_ok he
  have hinit : e.initGen ρ.init = .ok gen0 := by
    cases hd : base.initData with
    | none => rw [hm'.initNone hd]; exact h3 hd
    | some d => rw [(hm'.initSome d hd).2, h4 d hd]
  have hpos := hval.pos
  have hs := hval.size
  have hmkn : e.mkNoise ρ.noise = .ok (addNoise .zero) := by
    rw [hm'.mkNoise]
    have : BaseCfg.noiseAttr { base with maxIter := k, deadIter := d } = 0 := hnoise
    simp only [this, mkWhiteNoise, if_true]
  have hr : RunsAs p env e g cfg.base.sizeGen ρ.init := by
    refine ⟨rfl, fun _ => rfl, ?_, ?_, by omega, rfl, fun gen hg => ?_, rfl⟩
    · rw [hm'.truncLen]; exact hq.symm
    · rw [hm'.eliteLen]; exact hel.symm
    · rw [hinit] at hg; rw [← Except.ok.inj hg]; exact hG0
  rcases Nat.eq_zero_or_pos t with rfl | ht
  · obtain ⟨g', batch', hg', hb', hrows⟩ := first_batch hv hrun
    rw [hb] at hb'
    obtain rfl := Option.some.inj hb'
    rw [hrows]
    simp only at hg'
    rw [hinit] at hg'
    rw [← Except.ok.inj hg', hG0]
    rfl
  · have hlen := (C04_history_is_min hv hrun).1
    have htl := (List.getElem?_eq_some_iff.1 hb).1
    obtain ⟨s1, s2, brk, noise', hvis, hnz', hst, hlog⟩ := minimize_pass hv hrun ht (by omega)
    have hnz : noise' = addNoise .zero := by
      simp only at hnz'
      rw [hmkn] at hnz'
      exact (Except.ok.inj hnz').symm
    subst hnz
    have hlr : LearnsBy cfg.base.nVars cfg.lowerFactor (addNoise .zero) e.updatePm p.mu p.sd := by
      rw [hm'.updatePm]; exact hl.learns
    have hf := (visited_follows (ρ := { ρ with sample := ω }) hv hr hmkn hlr hm'.sample (by rw [hbb]; rfl)
      (by rw [hbb]; rfl) hvis).2
    obtain ⟨i, rfl⟩ : ∃ i, t = i + 1 := ⟨t - 1, by omega⟩
    simp only [Nat.add_sub_cancel] at hf
    have hf2 := step_follows (ρ := { ρ with sample := ω }) hv hr hlr hm'.sample hf hst
    rw [hb] at hlog
    simp only [Option.map_some, Option.some.injEq] at hlog
    rw [hlog, hf2.gen]

theorem getD_ofFn {n : ℕ} (x : Fin n → ℝ) (j : Fin n) : (List.ofFn x).getD j 0 = x j := by
  simp [List.getD_eq_getElem?_getD]

/-- From the run as a function of the draws to the probabilities. -/
theorem stuck_of_pure {n q : ℕ} {p : PureRun n} {j : Fin n} {κ c B : ℝ} (hp : p.Shrinks j q κ) (hB : 0 ≤ B)
    (hm : |p.mu (p.sel (fun _ _ _ => 0) 0) j - c| ≤ κ * B) (hd : p.dev j (fun _ _ _ => 0) 0 ≤ B)
    (h0 : ∀ x ∈ p.g0, |x j - c| ≤ B) {run : (ℕ → Draws ℝ) → St (List ℝ) ℝ (UniGauss ℝ) → Prop}
    (hrun : ∀ ω s, run ω s → ∀ t batch, s.log[t]? = some batch → batch.map Prod.fst = (p.pops ω t).1.map List.ofFn) :
    (∀ ω s, run ω s → ∀ p ∈ s.log.flatten, p.1.length = n) ∧
    (∀ R, 0 < R → eachGen Spec.normalDraws {ω | ∃ s, run ω s ∧ EvaluatedAway j c (κ * B + R) s} ≤
      ENNReal.ofReal (2 * q * p.size * κ * B / R)) ∧
    ∀ t ε, 0 < ε → eachGen Spec.normalDraws {ω | ∃ s, run ω s ∧ Scattered (t + 1) j ε s} ≤
      ENNReal.ofReal (2 * p.size * Real.sqrt (1 - 1 / q) ^ t * B / ε) := by
  have hκ : 0 ≤ κ := zero_le_one.trans hp.one
  refine ⟨?_, ?_, ?_⟩
  · intro ω s hs pr hpr
    obtain ⟨batch, hb, hcb⟩ := List.mem_flatten.1 hpr
    obtain ⟨t, ht⟩ := List.mem_iff_getElem?.1 hb
    have hmem : pr.1 ∈ (p.pops ω t).1.map List.ofFn := by
      rw [← hrun ω s hs t batch ht]; exact List.mem_map_of_mem hcb
    obtain ⟨x, _, hxe⟩ := List.mem_map.1 hmem
    rw [← hxe, List.length_ofFn]
  · intro R hR
    refine le_trans (measure_mono ?_) ((PureRun.far_probability hp hR).trans (ENNReal.ofReal_le_ofReal ?_))
    · rintro ω ⟨s, hs, pr, hpr, hle⟩
      obtain ⟨batch, hb, hcb⟩ := List.mem_flatten.1 hpr
      obtain ⟨t, ht⟩ := List.mem_iff_getElem?.1 hb
      have hmem : pr.1 ∈ (p.pops ω t).1.map List.ofFn := by
        rw [← hrun ω s hs t batch ht]; exact List.mem_map_of_mem hcb
      obtain ⟨x, hx, hxe⟩ := List.mem_map.1 hmem
      rw [← hxe, getD_ofFn] at hle
      cases t with
      | zero =>
        have h1 := h0 x hx
        have h2 : B ≤ κ * B := le_mul_of_one_le_left hB hp.one
        exfalso; linarith
      | succ t =>
        refine ⟨t, x, hx, ?_⟩
        have := abs_sub_le (x j) (p.mu (p.sel (fun _ _ _ => 0) 0) j) c
        linarith
    · gcongr
  · intro t ε hε
    let U : (ℕ → Draws ℝ) → ENNReal := fun ω => ENNReal.ofReal (p.dev j ω t * drawSum p.size j (ω (t + 1)))
    have hU : Measurable U :=
      ((PureRun.dev_measurable hp t).mul ((drawSum_measurable _ _).comp (measurable_pi_apply (t + 1)))).ennreal_ofReal
    have hsub : {ω | ∃ s, run ω s ∧ Scattered (t + 1) j ε s} ⊆ {ω | ENNReal.ofReal (ε / 2) ≤ U ω} := by
      rintro ω ⟨s, hs, batch, hb, a, ha, a', ha', hle⟩
      refine ENNReal.ofReal_le_ofReal ?_
      have key : ∀ a ∈ batch, |a.1.getD j 0 - p.mu (p.sel ω t) j| ≤ p.dev j ω t * drawSum p.size j (ω (t + 1)) := by
        intro a ha
        have hmem : a.1 ∈ (p.pops ω (t + 1)).1.map List.ofFn := by
          rw [← hrun ω s hs _ batch hb]; exact List.mem_map_of_mem ha
        obtain ⟨x, hx, hxe⟩ := List.mem_map.1 hmem
        rw [← hxe, getD_ofFn]
        simp only [PureRun.pops] at hx
        obtain ⟨i, hi, rfl⟩ := List.mem_map.1 hx
        have hd := PureRun.dev_nonneg hp ω t
        have e : p.mu (p.pick p.kT ((p.pops ω t).1 ++ (p.pops ω t).2)) j +
            p.sd (p.pick p.kT ((p.pops ω t).1 ++ (p.pops ω t).2)) j * ω (t + 1) i j - p.mu (p.sel ω t) j =
            p.dev j ω t * ω (t + 1) i j := by
          unfold PureRun.dev PureRun.sel; ring
        rw [e, abs_mul, abs_of_nonneg hd]
        exact mul_le_mul_of_nonneg_left (drawSum_ge (List.mem_range.1 hi) _) hd
      have h1 := key a ha
      have h2 := key a' ha'
      have h3 := abs_sub_le (a.1.getD j 0) (p.mu (p.sel ω t) j) (a'.1.getD j 0)
      rw [abs_sub_comm (p.mu (p.sel ω t) j)] at h3
      linarith
    refine (measure_mono hsub).trans ?_
    refine (meas_ge_le_lintegral_div hU.aemeasurable (by simpa using hε) ENNReal.ofReal_ne_top).trans ?_
    refine (ENNReal.div_le_div_right (PureRun.move_mean hp t) _).trans ?_
    rw [← ENNReal.ofReal_div_of_pos (by positivity)]
    refine ENNReal.ofReal_le_ofReal ?_
    have e : 2 * (p.size : ℝ) * Real.sqrt (1 - 1 / q) ^ t * B / ε =
        p.size * (Real.sqrt (1 - 1 / q) ^ t * B) / (ε / 2) := by field_simp
    rw [e]
    gcongr

end general

section algorithms
variable {fl : ℝ → ℝ} {cfg : UMDAcCfg ℝ} {env : Env ℝ} {g : List ℝ → ℝ} {ftol : ℝ} {ρ : Rand (Draws ℝ)}

namespace Spec

/-- The configuration with other limits for the number of generations. -/
def withLimits (cfg : UMDAcCfg ℝ) (k d : ℤ) : UMDAcCfg ℝ :=
  { cfg with base := { cfg.base with maxIter := k, deadIter := d } }

/-- The cost function increases strictly with a linear function of the variables. -/
def SlopeCost (n : ℕ) (g : List ℝ → ℝ) : Prop :=
  ∃ (a : Fin n → ℝ) (φ : ℝ → ℝ), StrictMono φ ∧ ∀ x : Fin n → ℝ, g (List.ofFn x) = φ (∑ j, a j * x j)

/-- Without elite and without a lower bound for the deviation, with probability at least `1 - 2 q N κ B / R` no
individual of any run (however long) has a distance of `κ B + R` or more from `c`, and two individuals of
generation `t + 1` differ by `ε` or more with probability at most `2 N √(1 - 1/q)^t B / ε`. -/
structure StaysNear (n : ℕ) (runs : (ℕ → Draws ℝ) → St (List ℝ) ℝ (UniGauss ℝ) → Prop) (j : ℕ) (c B κ : ℝ)
    (q N : ℕ) : Prop where
  shape : ∀ ω s, runs ω s → ∀ p ∈ s.log.flatten, p.1.length = n
  near : ∀ R, 0 < R → eachGen Spec.normalDraws {ω | ∃ s, runs ω s ∧ EvaluatedAway j c (κ * B + R) s} ≤
    ENNReal.ofReal (2 * q * N * κ * B / R)
  narrow : ∀ t ε, 0 < ε → eachGen Spec.normalDraws {ω | ∃ s, runs ω s ∧ Scattered (t + 1) j ε s} ≤
    ENNReal.ofReal (2 * N * Real.sqrt (1 - 1 / q) ^ t * B / ε)

end Spec

theorem slope_measurable {n : ℕ} (h : SlopeCost n g) : Measurable fun x : Fin n → ℝ => g (List.ofFn x) := by
  obtain ⟨a, φ, hφ, hg⟩ := h
  simp only [hg]
  refine hφ.monotone.measurable.comp (Finset.measurable_fun_sum _ fun j _ => ?_)
  exact (measurable_pi_apply j).const_mul _

/-- **C99** `UMDAc` on a slope: the cost function increases strictly with a linear function of the variables.  Without
elite, without white noise and with `lower_factor ≤ 0`, the individuals of all runs, however long, stay near the first
generation, and the generations shrink to a point. -/
theorem C99_UMDAc (hv : env.Valid) (hcs : ComparisonSort env.argsort) {m q : ℕ}
    (hval : ContValid env.cpu cfg.base cfg m (selLen fl cfg.base.sizeGen cfg.base.alpha))
    (hnoise : cfg.base.noiseAttr = 0) (hlf : cfg.lowerFactor ≤ 0)
    (hq : selLen fl cfg.base.sizeGen cfg.base.alpha = q) (hqm : q ≤ m)
    (hel : selLen fl cfg.base.sizeGen cfg.base.eliteFactor = 0) (hg : SlopeCost cfg.base.nVars g)
    (j : Fin cfg.base.nVars) {c B : ℝ} (hB : 0 ≤ B)
    (hfirst : ∀ e b gen, UMDAc fl Real.sqrt cfg = .ok (e, b) → e.initGen ρ.init = .ok gen →
      ∀ r ∈ gen.rows, |r.getD j 0 - c| ≤ B) :
    StaysNear cfg.base.nVars (fun ω s => ∃ k d e b res, UMDAc fl Real.sqrt (withLimits cfg k d) = .ok (e, b) ∧
      minimize env e (fun _ => g) ftol b { ρ with sample := ω } = .ok (res, s)) j c B 1 q cfg.base.sizeGen.toNat := by
  have hn : 0 < cfg.base.nVars := Fin.pos j
  obtain ⟨e0, b0, heb, _⟩ := C53_UMDAc_never_raises (fl := fl) (cfg := cfg) (f := fun _ => g) (ftol := ftol) (ρ := ρ)
    hv real_isSqrt hval (fun k r => by simp [IsNum, PyCost.eq])
  have hT := hval.trunc
  have hs := hval.size
  have hL := learner_umdac hn cfg.lowerFactor (.zero : Noise ℝ)
  have hmeas := slope_measurable hg
  obtain ⟨a, φ, hφ, hga⟩ := hg
  obtain ⟨p, h1, h2, h3, h4, h5, h6⟩ := cont_pure (ftol := ftol) (ρ := ρ) (g := g) (κ := 1) (c := c) hv rfl hval hnoise hq
    hel hqm hL (j := j) (fun g0 =>
      { kT := rfl, kE := rfl, pos := by omega, le := by show q ≤ cfg.base.sizeGen.toNat; omega
        srt := hv.argsort, sd := fun P => learnDev_zero hlf P j
        mu := fun P hP c B hB h => by
          rw [one_mul]
          exact learnMean_near (by rintro rfl; simp at hP; omega) hB h
        one := le_rfl
        spread := fun m d => PureRun.slope_spread _ hv.argsort (by omega) (by show q ≤ cfg.base.sizeGen.toNat; omega)
          hφ hga m d j
        sort := hcs, costMeas := hmeas, muMeas := hL.muMeas, sdMeas := hL.sdMeas }) heb hB (hfirst e0 b0 · heb)
  obtain ⟨r0, r1, r2⟩ := stuck_of_pure (run := fun ω s => ∃ k d e b res,
      UMDAc fl Real.sqrt (withLimits cfg k d) = .ok (e, b) ∧
      minimize env e (fun _ => g) ftol b { ρ with sample := ω } = .ok (res, s)) h1 hB h3 h4 h5 (by
    rintro ω s ⟨k, d, e, b, res, hmk, hrun⟩
    exact h6 ω k d e b res s hmk hrun)
  rw [h2] at r1 r2
  exact ⟨r0, r1, r2⟩

/-- **C99** `PBIL` on any (measurable) cost function, with `κ = |1 - alpha| + 3 |alpha|` for the learning rate
`alpha`. -/
theorem C99_PBIL (hv : env.Valid) (hcs : ComparisonSort env.argsort) {m : ℕ} (h2m : 2 ≤ m)
    (hval : ContValid env.cpu { cfg.base with alpha := 1 } cfg m (selLen fl cfg.base.sizeGen 1))
    (hnoise : cfg.base.noiseAttr = 0) (hlf : cfg.lowerFactor ≤ 0)
    (hq : selLen fl cfg.base.sizeGen 1 = cfg.base.sizeGen) (hqm : cfg.base.sizeGen ≤ m)
    (hel : selLen fl cfg.base.sizeGen cfg.base.eliteFactor = 0)
    (hm : Measurable fun x : Fin cfg.base.nVars → ℝ => g (List.ofFn x))
    (j : Fin cfg.base.nVars) {c B : ℝ} (hB : 0 ≤ B)
    (hfirst : ∀ e b gen, PBIL fl Real.sqrt cfg = .ok (e, b) → e.initGen ρ.init = .ok gen →
      ∀ r ∈ gen.rows, |r.getD j 0 - c| ≤ B) :
    StaysNear cfg.base.nVars (fun ω s => ∃ k d e b res, PBIL fl Real.sqrt (withLimits cfg k d) = .ok (e, b) ∧
      minimize env e (fun _ => g) ftol b { ρ with sample := ω } = .ok (res, s)) j c B
        (|1 - cfg.base.alpha| + 3 * |cfg.base.alpha|) cfg.base.sizeGen.toNat cfg.base.sizeGen.toNat := by
  have hn : 0 < cfg.base.nVars := Fin.pos j
  have hs := hval.size
  obtain ⟨e0, b0, heb, _⟩ := C53_PBIL_never_raises (fl := fl) (cfg := cfg) (f := fun _ => g) (ftol := ftol) (ρ := ρ)
    hv real_isSqrt h2m (by rw [hq]; omega) hval (fun k r => by simp [IsNum, PyCost.eq])
  have hL := learner_pbil hn cfg.lowerFactor cfg.base.alpha (.zero : Noise ℝ)
  have hκ : 1 ≤ |1 - cfg.base.alpha| + 3 * |cfg.base.alpha| := by
    have := abs_add_le (1 - cfg.base.alpha) cfg.base.alpha
    rw [sub_add_cancel, abs_one] at this
    linarith [abs_nonneg cfg.base.alpha]
  obtain ⟨p, h1, h2, h3, h4, h5, h6⟩ := cont_pure (ftol := ftol) (ρ := ρ) (g := g)
    (base := { cfg.base with alpha := 1 }) (q := cfg.base.sizeGen.toNat)
    (κ := |1 - cfg.base.alpha| + 3 * |cfg.base.alpha|) (c := c) hv rfl hval hnoise
    (by show selLen fl cfg.base.sizeGen 1 = _; rw [hq]; omega)
    hel (by omega) hL (j := j) (fun g0 =>
      { kT := rfl, kE := rfl, pos := by omega, le := le_rfl
        srt := hv.argsort, sd := fun P => learnDev_zero hlf P j
        mu := fun P hP c B hB h => learnShift_near (by rw [hP]; omega) hB h
        one := hκ
        spread := fun m d => PureRun.all_spread _ hv.argsort (by omega) m d j
        sort := hcs, costMeas := hm, muMeas := hL.muMeas, sdMeas := hL.sdMeas }) heb hB (hfirst e0 b0 · heb)
  obtain ⟨r0, r1, r2⟩ := stuck_of_pure (run := fun ω s => ∃ k d e b res,
      PBIL fl Real.sqrt (withLimits cfg k d) = .ok (e, b) ∧
      minimize env e (fun _ => g) ftol b { ρ with sample := ω } = .ok (res, s)) h1 hB h3 h4 h5 (by
    rintro ω s ⟨k, d, e, b, res, hmk, hrun⟩
    exact h6 ω k d e b res s hmk hrun)
  rw [h2] at r1 r2
  exact ⟨r0, r1, r2⟩

namespace Spec

/-- The cost function is bounded below on every box. -/
def BoundedOnBoxes (n : ℕ) (g : List ℝ → ℝ) : Prop :=
  ∀ M : ℝ, ∃ L : ℝ, ∀ x : Fin n → ℝ, (∀ j, |x j| ≤ M) → L ≤ g (List.ofFn x)

end Spec

theorem slope_boxes {n : ℕ} (h : SlopeCost n g) : BoundedOnBoxes n g := by
  obtain ⟨a, φ, hφ, hg⟩ := h
  intro M
  refine ⟨φ (-∑ j, |a j| * M), fun x hx => ?_⟩
  rw [hg]
  refine hφ.monotone ?_
  rw [← Finset.sum_neg_distrib]
  refine Finset.sum_le_sum fun j _ => ?_
  have := neg_abs_le (a j * x j)
  rw [abs_mul] at this
  nlinarith [mul_le_mul_of_nonneg_left (hx j) (abs_nonneg (a j))]

/-- The costs have a lower bound that holds for runs of all lengths with probability close to 1. -/
theorem costs_bounded {n q N : ℕ} {runs : (ℕ → Draws ℝ) → St (List ℝ) ℝ (UniGauss ℝ) → Prop} {B κ : ℝ} (hB : 0 ≤ B)
    (hκ : 0 ≤ κ) (h : ∀ j : Fin n, StaysNear n runs j 0 B κ q N) (hn : 0 < n) (hg : BoundedOnBoxes n g) {η : ENNReal}
    (hη : 0 < η) : ∃ L : ℝ, eachGen Spec.normalDraws {ω | ∃ s, runs ω s ∧ ∃ p ∈ s.log.flatten, g p.1 < L} ≤ η := by
  have hfin : ∃ η' : ℝ, 0 < η' ∧ ENNReal.ofReal η' ≤ η := by
    rcases eq_or_ne η ⊤ with rfl | ht
    · exact ⟨1, one_pos, le_top⟩
    · exact ⟨η.toReal, ENNReal.toReal_pos hη.ne' ht, by rw [ENNReal.ofReal_toReal ht]⟩
  obtain ⟨η', h0, hle⟩ := hfin
  set c : ℝ := 2 * q * N * κ * B with hc
  have hc0 : 0 ≤ c := by positivity
  set R : ℝ := n * c / η' + 1 with hR
  have hR0 : 0 < R := by positivity
  obtain ⟨L, hL⟩ := hg (κ * B + R)
  refine ⟨L, le_trans ?_ hle⟩
  have hsub : {ω | ∃ s, runs ω s ∧ ∃ p ∈ s.log.flatten, g p.1 < L} ⊆
      ⋃ j : Fin n, {ω | ∃ s, runs ω s ∧ EvaluatedAway j 0 (κ * B + R) s} := by
    rintro ω ⟨s, hs, p, hp, hlt⟩
    by_contra hne
    simp only [Set.mem_iUnion, Set.mem_ofPred_eq, not_exists] at hne
    have hlen := (h ⟨0, hn⟩).shape ω s hs p hp
    have hx : p.1 = List.ofFn fun j : Fin n => p.1.getD j 0 := by
      apply List.ext_getElem?
      intro j
      rw [List.getElem?_ofFn]
      by_cases hj : j < n
      · simp [hj, List.getD_eq_getElem?_getD, hlen]
      · simp [hj, hlen]
    rw [hx] at hlt
    refine absurd hlt (not_lt.2 (hL _ fun j => ?_))
    by_contra hgt
    refine hne j s ⟨hs, p, hp, ?_⟩
    rw [sub_zero]
    exact (not_le.1 hgt).le
  refine (measure_mono hsub).trans ((measure_iUnion_fintype_le _ _).trans ?_)
  refine (Finset.sum_le_card_nsmul _ _ (ENNReal.ofReal (c / R)) fun j _ => (h j).near R hR0).trans ?_
  rw [Finset.card_univ, Fintype.card_fin, nsmul_eq_mul, ← ENNReal.ofReal_natCast, ← ENNReal.ofReal_mul (by positivity)]
  refine ENNReal.ofReal_le_ofReal ?_
  rw [← mul_div_assoc, div_le_iff₀ hR0, hR, mul_add, mul_div_cancel₀ _ h0.ne']
  linarith

theorem rows_bound (gen : Gen (List ℝ)) (n : ℕ) : ∃ B : ℝ, 0 ≤ B ∧ ∀ j : Fin n, ∀ r ∈ gen.rows, |r.getD j 0 - 0| ≤ B := by
  obtain ⟨c, hc⟩ := list_bound gen.rows fun r => ((List.finRange n).map fun j : Fin n => |r.getD j 0|).sum
  refine ⟨max c 0, le_max_right _ _, fun j r hr => ?_⟩
  rw [sub_zero]
  refine le_trans ?_ ((hc r hr).trans (le_max_left _ _))
  refine List.single_le_sum ?_ _ (List.mem_map.2 ⟨j, List.mem_finRange j, rfl⟩)
  intro x hx
  obtain ⟨i, _, rfl⟩ := List.mem_map.1 hx
  exact abs_nonneg _

/-- **C99** on a slope without lower end `UMDAc` does not find arbitrarily small costs: without elite, without white
noise and with `lower_factor ≤ 0`, for every `η > 0` there is a cost `L` such that, with probability at least `1 - η`,
no run, however long, evaluates an individual that costs less than `L`. -/
theorem C99_UMDAc_bounded (hv : env.Valid) (hcs : ComparisonSort env.argsort) {m q : ℕ}
    (hval : ContValid env.cpu cfg.base cfg m (selLen fl cfg.base.sizeGen cfg.base.alpha))
    (hnoise : cfg.base.noiseAttr = 0) (hlf : cfg.lowerFactor ≤ 0) (hn : 0 < cfg.base.nVars)
    (hq : selLen fl cfg.base.sizeGen cfg.base.alpha = q) (hqm : q ≤ m)
    (hel : selLen fl cfg.base.sizeGen cfg.base.eliteFactor = 0) (hg : SlopeCost cfg.base.nVars g) {η : ENNReal}
    (hη : 0 < η) : ∃ L : ℝ, eachGen Spec.normalDraws {ω | ∃ s,
      (∃ k d e b res, UMDAc fl Real.sqrt (withLimits cfg k d) = .ok (e, b) ∧
        minimize env e (fun _ => g) ftol b { ρ with sample := ω } = .ok (res, s)) ∧
      ∃ p ∈ s.log.flatten, g p.1 < L} ≤ η := by
  obtain ⟨e0, b0, heb, res, s, hrun⟩ := C53_UMDAc_never_raises (fl := fl) (cfg := cfg) (f := fun _ => g) (ftol := ftol)
    (ρ := ρ) hv real_isSqrt hval (fun k r => by simp [IsNum, PyCost.eq])
  obtain ⟨gen, _, hgen, _⟩ := first_batch hv hrun
  obtain ⟨B, hB, hb⟩ := rows_bound gen cfg.base.nVars
  refine costs_bounded hB zero_le_one (fun j => C99_UMDAc hv hcs hval hnoise hlf hq hqm hel hg j hB ?_) hn
    (slope_boxes hg) hη
  intro e b gen' he hg'
  rw [heb] at he
  obtain ⟨rfl, rfl⟩ := Prod.mk.inj (Except.ok.inj he)
  rw [hgen] at hg'
  obtain rfl := Except.ok.inj hg'
  exact hb j

/-- **C99** the same for `PBIL` and every cost function that is bounded below on every box. -/
theorem C99_PBIL_bounded (hv : env.Valid) (hcs : ComparisonSort env.argsort) {m : ℕ} (h2m : 2 ≤ m)
    (hval : ContValid env.cpu { cfg.base with alpha := 1 } cfg m (selLen fl cfg.base.sizeGen 1))
    (hnoise : cfg.base.noiseAttr = 0) (hlf : cfg.lowerFactor ≤ 0) (hn : 0 < cfg.base.nVars)
    (hq : selLen fl cfg.base.sizeGen 1 = cfg.base.sizeGen) (hqm : cfg.base.sizeGen ≤ m)
    (hel : selLen fl cfg.base.sizeGen cfg.base.eliteFactor = 0)
    (hm : Measurable fun x : Fin cfg.base.nVars → ℝ => g (List.ofFn x)) (hg : BoundedOnBoxes cfg.base.nVars g)
    {η : ENNReal} (hη : 0 < η) : ∃ L : ℝ, eachGen Spec.normalDraws {ω | ∃ s,
      (∃ k d e b res, PBIL fl Real.sqrt (withLimits cfg k d) = .ok (e, b) ∧
        minimize env e (fun _ => g) ftol b { ρ with sample := ω } = .ok (res, s)) ∧
      ∃ p ∈ s.log.flatten, g p.1 < L} ≤ η := by
  have hs := hval.size
  obtain ⟨e0, b0, heb, res, s, hrun⟩ := C53_PBIL_never_raises (fl := fl) (cfg := cfg) (f := fun _ => g) (ftol := ftol)
    (ρ := ρ) hv real_isSqrt h2m (by rw [hq]; omega) hval (fun k r => by simp [IsNum, PyCost.eq])
  obtain ⟨gen, _, hgen, _⟩ := first_batch hv hrun
  obtain ⟨B, hB, hb⟩ := rows_bound gen cfg.base.nVars
  refine costs_bounded hB (by positivity) (fun j => C99_PBIL hv hcs h2m hval hnoise hlf hq hqm hel hm j hB ?_) hn
    hg hη
  intro e b gen' he hg'
  rw [heb] at he
  obtain ⟨rfl, rfl⟩ := Prod.mk.inj (Except.ok.inj he)
  rw [hgen] at hg'
  obtain rfl := Except.ok.inj hg'
  exact hb j

end algorithms

/-! ### Concrete cases -/

namespace Ex

/-- A cost function without lower bound. -/
def downhill (r : List ℝ) : ℝ := r.getD 0 0 - 2 * r.getD 1 0

theorem downhill_slope : SlopeCost fade.base.nVars downhill := by
  refine ⟨fun j => if j.val = 0 then 1 else -2, id, strictMono_id, ?_⟩
  show ∀ x : Fin 2 → ℝ, _
  intro x
  show downhill (List.ofFn (n := 2) x) = ∑ j : Fin 2, (if j.val = 0 then 1 else -2) * x j
  rw [Fin.sum_univ_two]
  simp [downhill]
  ring

theorem fade_elite : selLen (id : ℝ → ℝ) fade.base.sizeGen fade.base.eliteFactor = 0 := by
  norm_num [fade, selLen, pyInt, Num.truncZ]

theorem fade_first {ω : Draws ℝ} (hω : Unit01 ω) {e : Eda (List ℝ) (UniGauss ℝ) (Draws ℝ)} {b : UniGauss ℝ}
    {base : BaseCfg ℝ (List ℝ)} (hb : base.initData = none)
    {learn : UniGauss ℝ → Gen (List ℝ) → Gen (List ℝ) → Draws ℝ → Except PyErr (UniGauss ℝ)}
    (h : mkCont id base fade learn = .ok (e, b)) {gen : Gen (List ℝ)} (hg : e.initGen ω = .ok gen) (j : Fin 2) :
    ∀ r ∈ gen.rows, |r.getD j 0 - 1 / 2| ≤ 1 / 2 := by
  have hm := mkEda_ok (mkCont_ok h).1
  rw [hm.initNone hb] at hg
  obtain ⟨u, hu, hi⟩ : ∃ u, UniformInit.new 2 (.scalar (0 : ℝ)) (.scalar 1) = .ok u ∧ u.sample id 4 ω = .ok gen := by
    unfold contInitSample contInit at hg
    simp only [fade] at hg
    split at hg
    · simp at hg
    rename_i c hc
    split at hc
    · simp at hc
    rename_i u hu
    obtain rfl := Except.ok.inj hc
    exact ⟨u, hu, hg⟩
  intro r hr
  obtain ⟨v, h1, h2, h3, _⟩ := (C30_within_bounds_partial hu hω hi).2.2.2 r hr j 0 1 j.2 rfl rfl zero_le_one
  rw [List.getD_eq_getElem?_getD, h1, Option.getD_some, abs_le]
  constructor <;> linarith

end Ex

/-- C99, `UMDAc`: 4 individuals in `[0, 1]²`, 2 are selected, the cost `x₀ - 2 x₁` has no lower bound.  Runs of every
length exist; with probability 0.99 no run, however long, leaves `(-800, 801)` in any of the variables; generation 60
has a width of 1/100 or more with probability at most 2 · 10⁻⁶. -/
example (ρ : Rand (Draws ℝ)) (hω : Unit01 ρ.init) (j : Fin 2) :
    (∀ (k : ℕ) (ω : ℕ → Draws ℝ), ∃ e b res s, UMDAc id Real.sqrt (withLimits Ex.fade k 0) = .ok (e, b) ∧
      minimize realEnv e (fun _ => Ex.downhill) 0 b { ρ with sample := ω } = .ok (res, s)) ∧
    eachGen Spec.normalDraws {ω | ∃ s, (∃ k d e b res, UMDAc id Real.sqrt (withLimits Ex.fade k d) = .ok (e, b) ∧
      minimize realEnv e (fun _ => Ex.downhill) 0 b { ρ with sample := ω } = .ok (res, s)) ∧
      EvaluatedAway j (1 / 2) (1 / 2 + 800) s} ≤ ENNReal.ofReal (1 / 100) ∧
    eachGen Spec.normalDraws {ω | ∃ s, (∃ k d e b res, UMDAc id Real.sqrt (withLimits Ex.fade k d) = .ok (e, b) ∧
      minimize realEnv e (fun _ => Ex.downhill) 0 b { ρ with sample := ω } = .ok (res, s)) ∧
      Scattered 59 j (1 / 100) s} ≤ ENNReal.ofReal (1 / 10 ^ 6) := by
  have h := C99_UMDAc (fl := id) (cfg := Ex.fade) (env := realEnv) (g := Ex.downhill) (ftol := 0) (ρ := ρ) (q := 2)
    realEnv_valid stableArgsort_comparison Ex.fade_valid (by simp [BaseCfg.noiseAttr, Ex.fade]) le_rfl Ex.selLen_half
    (by norm_num) Ex.fade_elite Ex.downhill_slope j (c := 1 / 2) (B := 1 / 2) (by norm_num)
    (fun e b gen he hg => Ex.fade_first hω rfl he hg j)
  refine ⟨fun k ω => ?_, ?_, ?_⟩
  · obtain ⟨e, b, he, res, s, hr⟩ := C53_UMDAc_never_raises (fl := id) (cfg := withLimits Ex.fade k 0) (env := realEnv)
      (f := fun _ => Ex.downhill)      (ftol := 0) (ρ := { ρ with sample := ω }) realEnv_valid real_isSqrt (contValid_limits Ex.fade_valid k)
      (fun _ _ => field_isNum _)
    exact ⟨e, b, res, s, he, hr⟩
  · have := h.near 800 (by norm_num)
    rw [one_mul] at this
    refine this.trans (ENNReal.ofReal_le_ofReal ?_)
    show 2 * ((2 : ℕ) : ℝ) * ((4 : ℕ) : ℝ) * 1 * (1 / 2) / 800 ≤ 1 / 100
    norm_num
  · refine (h.narrow 58 (1 / 100) (by norm_num)).trans (ENNReal.ofReal_le_ofReal ?_)
    show 2 * ((4 : ℕ) : ℝ) * Real.sqrt (1 - 1 / ((2 : ℕ) : ℝ)) ^ 58 * (1 / 2) / (1 / 100) ≤ 1 / 10 ^ 6
    have : Real.sqrt (1 - 1 / ((2 : ℕ) : ℝ)) ^ 58 = (1 / 2) ^ 29 := by
      rw [show 58 = 2 * 29 from rfl, pow_mul, Real.sq_sqrt (by norm_num)]; norm_num
    rw [this]
    norm_num

/-- C99, `PBIL` with learning rate 1/2 (`κ = 2`) and a cost function with many local minima: with probability 0.99 no
run, however long, leaves the distance 6401 from the middle of the first generation. -/
example (ρ : Rand (Draws ℝ)) (hω : Unit01 ρ.init) (j : Fin 2) :
    eachGen Spec.normalDraws {ω | ∃ s, (∃ k d e b res, PBIL id Real.sqrt (withLimits Ex.fade k d) = .ok (e, b) ∧
      minimize realEnv e (fun _ r => Real.sin (r.getD 0 0) - r.getD 1 0 ^ 2) 0 b { ρ with sample := ω } = .ok (res, s)) ∧
      EvaluatedAway j (1 / 2) (2 * (1 / 2) + 3200) s} ≤ ENNReal.ofReal (1 / 100) := by
  have hα : |1 - Ex.fade.base.alpha| + 3 * |Ex.fade.base.alpha| = 2 := by
    show |1 - (1 / 2 : ℝ)| + 3 * |(1 / 2 : ℝ)| = 2
    norm_num [abs_of_pos]
  have h := C99_PBIL (fl := id) (cfg := Ex.fade) (env := realEnv)
    (g := fun r => Real.sin (r.getD 0 0) - r.getD 1 0 ^ 2) (ftol := 0) (ρ := ρ) (m := 4)
    realEnv_valid stableArgsort_comparison (by norm_num) Ex.fade_valid_pbil (by simp [BaseCfg.noiseAttr, Ex.fade]) le_rfl
    Ex.selLen_one le_rfl Ex.fade_elite (by
      show Measurable fun x : Fin 2 → ℝ => Real.sin ((List.ofFn x).getD 0 0) - (List.ofFn x).getD 1 0 ^ 2
      simp only [List.ofFn_succ, List.getD_cons_zero, List.getD_cons_succ]
      fun_prop) j (c := 1 / 2) (B := 1 / 2) (by norm_num)
    (fun e b gen he hg => Ex.fade_first (base := { Ex.fade.base with alpha := 1 }) hω rfl he hg j)
  rw [hα] at h
  refine (h.near 3200 (by norm_num)).trans (ENNReal.ofReal_le_ofReal ?_)
  show 2 * ((4 : ℕ) : ℝ) * ((4 : ℕ) : ℝ) * 2 * (1 / 2) / 3200 ≤ 1 / 100
  norm_num

/-- C99, the costs: a lower bound for the costs of all runs. -/
example (ρ : Rand (Draws ℝ)) : ∃ L : ℝ, eachGen Spec.normalDraws {ω | ∃ s,
    (∃ k d e b res, UMDAc id Real.sqrt (withLimits Ex.fade k d) = .ok (e, b) ∧
      minimize realEnv e (fun _ => Ex.downhill) 0 b { ρ with sample := ω } = .ok (res, s)) ∧
    ∃ p ∈ s.log.flatten, Ex.downhill p.1 < L} ≤ ENNReal.ofReal (1 / 100) :=
  C99_UMDAc_bounded (q := 2) realEnv_valid stableArgsort_comparison Ex.fade_valid (by simp [BaseCfg.noiseAttr, Ex.fade])
    le_rfl (by show 0 < 2; norm_num) Ex.selLen_half (by norm_num) Ex.fade_elite Ex.downhill_slope (by norm_num)

end Verif
