/-
Normal draws fall into a box with a probability bounded below, and the runs of `UMDAc`/`PBIL` follow `PureRun`.
-/
import Verif.Props.Leave
import Verif.Lemmas.ConvRun
import Verif.Lemmas.Drift

namespace Verif

open PyCost Spec MeasureTheory ProbabilityTheory

/-- A lower bound for the probability of an interval under the standard normal distribution. -/
noncomputable def gaussLow (B r : ℝ) : ENNReal :=
  ENNReal.ofReal ((Real.sqrt (2 * Real.pi))⁻¹ * Real.exp (-(B + r) ^ 2 / 2)) * ENNReal.ofReal (2 * r)

theorem gaussLow_ne {B r : ℝ} (hr : 0 < r) : gaussLow B r ≠ 0 := by
  have : 0 < Real.sqrt (2 * Real.pi) := Real.sqrt_pos.2 (by positivity)
  refine mul_ne_zero ?_ ?_
  · rw [Ne, ENNReal.ofReal_eq_zero, not_le]; positivity
  · rw [Ne, ENNReal.ofReal_eq_zero, not_le]; positivity

theorem gaussLow_le {B r c : ℝ} (hc : |c| ≤ B) :
    gaussLow B r ≤ gaussianReal 0 1 (Set.Ioo (c - r) (c + r)) := by
  rw [gaussianReal_apply 0 one_ne_zero]
  have hvol : volume (Set.Ioo (c - r) (c + r)) = ENNReal.ofReal (2 * r) := by
    rw [Real.volume_Ioo]; congr 1; ring
  unfold gaussLow
  rw [← hvol, ← setLIntegral_const]
  refine setLIntegral_mono' measurableSet_Ioo fun x hx => ?_
  unfold gaussianPDF
  refine ENNReal.ofReal_le_ofReal ?_
  unfold gaussianPDFReal
  simp only [NNReal.coe_one, mul_one, sub_zero]
  refine mul_le_mul_of_nonneg_left (Real.exp_le_exp.2 ?_) (by positivity)
  have hx' : |x| ≤ B + r := by
    have h1 : |x - c| < r := abs_lt.2 ⟨by linarith [hx.1], by linarith [hx.2]⟩
    have h2 : |x| ≤ |x - c| + |c| := by simpa using abs_add_le (x - c) c
    linarith
  have : x ^ 2 ≤ (B + r) ^ 2 := by
    rw [← sq_abs x]
    exact pow_le_pow_left₀ (abs_nonneg x) hx' 2
  have e1 : -(B + r) ^ 2 / 2 = -((B + r) ^ 2 / 2) := by ring
  have e2 : -x ^ 2 / 2 = -(x ^ 2 / 2) := by ring
  rw [e1, e2]
  linarith

/-- One individual sampled from bounded means and deviations falls into the box around a target. -/
theorem normal_box {n : ℕ} {m s target : Fin n → ℝ} {M l S δ : ℝ} (hl : 0 < l) (hδ : 0 < δ)
    (hm : ∀ j, |m j| ≤ M) (hs : ∀ j, l ≤ s j ∧ s j ≤ S) (ht : ∀ j, |target j| ≤ M) :
    gaussLow (2 * M / l) (δ / S) ^ n ≤
      normalDraws {z : Draws ℝ | ∀ j : Fin n, |m j + s j * z 0 j - target j| < δ} := by
  rcases Nat.eq_zero_or_pos n with rfl | hn
  · have : {z : Draws ℝ | ∀ j : Fin 0, |m j + s j * z 0 j - target j| < δ} = Set.univ := by
      ext z; simp
    rw [this]; simp
  have hS : 0 < S := hl.trans_le ((hs ⟨0, hn⟩).1.trans (hs ⟨0, hn⟩).2)
  let I : ℕ → Set ℝ := fun j => if h : j < n then {x | |m ⟨j, h⟩ + s ⟨j, h⟩ * x - target ⟨j, h⟩| < δ} else Set.univ
  have hI : ∀ j, MeasurableSet (I j) := by
    intro j
    by_cases h : j < n
    · simp only [I, h, dif_pos]
      exact measurableSet_lt (continuous_abs.measurable.comp (by fun_prop)) measurable_const
    · simp only [I, h, dif_neg, not_false_eq_true, MeasurableSet.univ]
  have hset : {z : Draws ℝ | ∀ j : Fin n, |m j + s j * z 0 j - target j| < δ} =
      Set.pi (({0} : Finset ℕ) : Set ℕ) (fun _ => Set.pi (Finset.range n : Set ℕ) I) := by
    ext z
    simp only [Set.mem_ofPred_eq, Finset.coe_singleton, Set.mem_pi, Set.mem_singleton_iff, forall_eq,
      Finset.coe_range, Set.mem_Iio, I]
    constructor
    · intro h j hj
      rw [dif_pos hj]; exact h ⟨j, hj⟩
    · intro h j
      have := h j j.2
      rw [dif_pos j.2] at this; exact this
  rw [hset, normalDraws, Measure.infinitePi_pi _ (fun _ _ => ?_)]
  swap
  · exact MeasurableSet.pi (Finset.countable_toSet _) fun j _ => hI j
  rw [Finset.prod_singleton, Measure.infinitePi_pi _ (fun j _ => hI j)]
  calc gaussLow (2 * M / l) (δ / S) ^ n = ∏ _j ∈ Finset.range n, gaussLow (2 * M / l) (δ / S) := by simp
    _ ≤ _ := Finset.prod_le_prod' fun j hj => ?_
  have hj' := Finset.mem_range.1 hj
  have hsj := hs ⟨j, hj'⟩
  have hpos : 0 < s ⟨j, hj'⟩ := hl.trans_le hsj.1
  refine (gaussLow_le (c := (target ⟨j, hj'⟩ - m ⟨j, hj'⟩) / s ⟨j, hj'⟩) ?_).trans
    (measure_mono ?_)
  · rw [abs_div, abs_of_pos hpos]
    have h1 : |target ⟨j, hj'⟩ - m ⟨j, hj'⟩| ≤ 2 * M :=
      (abs_sub _ _).trans (by linarith [hm ⟨j, hj'⟩, ht ⟨j, hj'⟩])
    exact div_le_div₀ (le_trans (abs_nonneg _) h1) h1 hl hsj.1
  · intro x hx
    simp only [I, hj', dif_pos, Set.mem_ofPred_eq]
    have : m ⟨j, hj'⟩ + s ⟨j, hj'⟩ * x - target ⟨j, hj'⟩ =
        s ⟨j, hj'⟩ * (x - (target ⟨j, hj'⟩ - m ⟨j, hj'⟩) / s ⟨j, hj'⟩) := by
      field_simp; ring
    rw [this, abs_mul, abs_of_pos hpos]
    have h2 : |x - (target ⟨j, hj'⟩ - m ⟨j, hj'⟩) / s ⟨j, hj'⟩| < δ / S :=
      abs_lt.2 ⟨by linarith [hx.1], by linarith [hx.2]⟩
    calc s ⟨j, hj'⟩ * |x - (target ⟨j, hj'⟩ - m ⟨j, hj'⟩) / s ⟨j, hj'⟩|
        < s ⟨j, hj'⟩ * (δ / S) := mul_lt_mul_of_pos_left h2 hpos
      _ ≤ S * (δ / S) := mul_le_mul_of_nonneg_right hsj.2 (by positivity)
      _ = δ := by field_simp

/-! ### Runs follow `PureRun` -/

section link
variable {fl : ℝ → ℝ} {cfg : UMDAcCfg ℝ} {env : Env ℝ} {g : List ℝ → ℝ} {ftol : ℝ}
variable {ρ : Rand (Draws ℝ)} {e : Eda (List ℝ) (UniGauss ℝ) (Draws ℝ)} {b : UniGauss ℝ} {n : ℕ}

/-- What is learned from the selected individuals (after the noise is added). -/
def LearnsBy (n : ℕ) (lb : ℝ) (noise : Gen (List ℝ) → Except PyErr (Gen (List ℝ)))
    (learn : UniGauss ℝ → Gen (List ℝ) → Gen (List ℝ) → Draws ℝ → Except PyErr (UniGauss ℝ))
    (mu sd : List (Fin n → ℝ) → Fin n → ℝ) : Prop :=
  ∀ pm gen noisy el ω pm' P, pm.n = n → pm.lb = lb → gen.rows = P.map List.ofFn → noise gen = .ok noisy →
    learn pm noisy el ω = .ok pm' → pm'.Good n lb ∧
      ∀ j : Fin n, pm'.mean.getD j 0 = mu P j ∧ pm'.std.getD j 0 = sd P j

theorem truncation_idx {R C σ Ω : Type} [PyCost C] {env : Env C} {e : Eda R σ Ω} {s s1 : St R C σ}
    (h : truncation env e s = .ok s1) :
    s1.gen.rows = takeIdx (s.gen.rows ++ s.elite.rows) (sliceTo (env.argsort (s.evals ++ s.evalsElite)) e.truncLen) ∧
    s1.elite.rows = takeIdx (s.gen.rows ++ s.elite.rows) (sliceTo (env.argsort (s.evals ++ s.evalsElite)) e.eliteLen) ∧
    s1.evalsElite =
      takeIdx (s.evals ++ s.evalsElite) (sliceTo (env.argsort (s.evals ++ s.evalsElite)) e.eliteLen) := by
  unfold truncation Gen.concat at h
  split at h
  · simp at h
  · rename_i gen hg
    split at hg
    · simp only [Except.ok.injEq] at hg h
      subst hg; subst h
      exact ⟨rfl, rfl, rfl⟩
    · simp at hg

/-- The state before a pass. -/
structure Follows (p : PureRun n) (g : List ℝ → ℝ) (lb : ℝ) (ω : ℕ → Draws ℝ) (k : ℕ)
    (s : St (List ℝ) ℝ (UniGauss ℝ)) : Prop where
  gen : s.gen.rows = (p.pops ω k).1.map List.ofFn
  elite : s.elite.rows = (p.pops ω k).2.map List.ofFn
  evals : s.evals = s.gen.rows.map g
  evalsElite : s.evalsElite = s.elite.rows.map g
  n : s.pm.n = n
  lb : s.pm.lb = lb

/-- The settings of the run are those of the configuration. -/
structure RunsAs (p : PureRun n) (env : Env ℝ) (e : Eda (List ℝ) (UniGauss ℝ) (Draws ℝ)) (g : List ℝ → ℝ)
    (size : ℤ) (ω : Draws ℝ) : Prop where
  srt : p.srt = env.argsort
  cost : ∀ x, p.cost x = g (List.ofFn x)
  kT : p.kT = e.truncLen
  kE : p.kE = e.eliteLen
  pos : 0 ≤ size
  gens : p.size = size.toNat
  first : ∀ gen, e.initGen ω = .ok gen → gen.rows = p.g0.map List.ofFn
  elite : p.l0 = p.g0.take 1

theorem pool_cost {p : PureRun n} {size : ℤ} {ω0 : Draws ℝ} (hp : RunsAs p env e g size ω0)
    (P : List (Fin n → ℝ)) : (P.map List.ofFn).map g = P.map p.cost := by
  rw [List.map_map]; exact List.map_congr_left fun x _ => (hp.cost x).symm

theorem step_follows (hv : env.Valid) {p : PureRun n} {lb : ℝ} {size : ℤ}
    (hp : RunsAs p env e g size ρ.init) {noise : Gen (List ℝ) → Except PyErr (Gen (List ℝ))}
    (hl : LearnsBy n lb noise e.updatePm p.mu p.sd) (hsam : e.sample = fun b ω => b.sample size ω)
    {k : ℕ} {s s' : St (List ℝ) ℝ (UniGauss ℝ)} {brk : Bool} (hf : Follows p g lb ρ.sample k s)
    (hst : step env e (fun _ => g) ftol ρ noise (k + 1) s = .ok (s', brk)) :
    Follows p g lb ρ.sample (k + 1) s' := by
  obtain ⟨s1, noisy, ev, _, _, _, hs⟩ := step_ok hst
  obtain ⟨t1, t2, t3⟩ := truncation_idx hs.trunc
  have hev : s.evals ++ s.evalsElite = (((p.pops ρ.sample k).1 ++ (p.pops ρ.sample k).2).map p.cost) := by
    rw [hf.evals, hf.evalsElite, hf.gen, hf.elite, pool_cost hp, pool_cost hp, List.map_append]
  have hrw : s.gen.rows ++ s.elite.rows = ((p.pops ρ.sample k).1 ++ (p.pops ρ.sample k).2).map List.ofFn := by
    rw [hf.gen, hf.elite, List.map_append]
  rw [hev, hrw, takeIdx_map, ← hp.srt, ← hp.kT] at t1
  rw [hev, hrw, takeIdx_map, ← hp.srt, ← hp.kE] at t2
  rw [hev, takeIdx_map, ← hp.srt, ← hp.kE] at t3
  obtain ⟨hg, hval⟩ := hl _ _ _ _ _ _ _ hf.n hf.lb t1 hs.noise hs.update
  have hsm := hs.sample
  rw [hsam] at hsm
  simp only at hsm
  rw [UniGauss.sample_eq hg hp.pos] at hsm
  have hrows := congrArg Gen.rows (Except.ok.inj hsm)
  simp only at hrows
  refine ⟨?_, ?_, ?_, ?_, hg.n, hg.lb⟩
  · rw [← hrows]
    simp only [PureRun.pops, hp.gens, List.map_map]
    refine List.map_congr_left fun i _ => ?_
    simp only [Function.comp]
    rw [List.ofFn_eq_map, ← List.map_coe_finRange_eq_range, List.map_map]
    refine List.map_congr_left fun j _ => ?_
    simp only [Function.comp]
    rw [(hval j).1, (hval j).2]
    rfl
  · rw [hs.elite, t2]; rfl
  · rw [hs.evals, check_stored hv hs.check, callRows_same]
  · rw [hs.evalsElite, hs.elite, t2, t3, pool_cost hp]

theorem visited_follows (hv : env.Valid) {p : PureRun n} {lb : ℝ} {size : ℤ}
    (hp : RunsAs p env e g size ρ.init) {noise : Gen (List ℝ) → Except PyErr (Gen (List ℝ))}
    (hnz : e.mkNoise ρ.noise = .ok noise) (hl : LearnsBy n lb noise e.updatePm p.mu p.sd)
    (hsam : e.sample = fun b ω => b.sample size ω) (hbn : b.n = n) (hbl : b.lb = lb)
    {t : ℕ} {s : St (List ℝ) ℝ (UniGauss ℝ)} (h : Visited env e (fun _ => g) ftol b ρ t s) :
    1 ≤ t ∧ Follows p g lb ρ.sample (t - 1) s := by
  induction h with
  | first h0 =>
    obtain ⟨ev, r0, c0, _, _, hs⟩ := start_ok h0
    refine ⟨le_rfl, ?_⟩
    have hg := hp.first _ hs.init
    have hst := check_stored hv hs.check
    rw [callRows_same] at hst
    have hr0 := hs.row0
    have hc0 := hs.cost0
    rw [hst, List.getElem?_map, hr0] at hc0
    simp only [Option.map_some, Option.some.injEq] at hc0
    refine ⟨hg, ?_, ?_, ?_, ?_, ?_⟩
    · rw [hs.elite]
      simp only [PureRun.pops, Nat.sub_self, hp.elite]
      rw [List.map_take, ← hg]
      cases hgr : _root_.Verif.St.gen _ with
      | mk dt cols rows =>
        rw [hgr] at hr0
        cases rows with
        | nil => simp at hr0
        | cons a l => simp at hr0; simp [hr0]
    · rw [hs.evals, hst]
    · rw [hs.evalsElite, hs.elite]; simp [hc0]
    · rw [hs.pm, hbn]
    · rw [hs.pm, hbl]
  | next hvis hn hstep ih =>
    obtain ⟨h1, ih⟩ := ih
    refine ⟨by omega, ?_⟩
    rw [hnz] at hn
    obtain rfl := Except.ok.inj hn
    rename_i t s s'
    obtain ⟨k, rfl⟩ : ∃ k, t = k + 1 := ⟨t - 1, by omega⟩
    simp only [Nat.add_sub_cancel] at ih ⊢
    exact step_follows hv hp hl hsam ih hstep

namespace Spec

/-- The run evaluated an individual within `δ` of the target in every variable. -/
def EvaluatedNear {C σ : Type} {n : ℕ} (target : Fin n → ℝ) (δ : ℝ) (s : St (List ℝ) C σ) : Prop :=
  ∃ p ∈ s.log.flatten, ∃ x : Fin n → ℝ, p.1 = List.ofFn x ∧ ∀ j, |x j - target j| < δ

end Spec

/-- A draw that hits the box leads to an evaluated individual in the box. -/
theorem near_of_hit (hv : env.Valid) {p : PureRun n} {lb : ℝ} {size : ℤ}
    (hp : RunsAs p env e g size ρ.init) (hpos : 1 ≤ size) {noise : Gen (List ℝ) → Except PyErr (Gen (List ℝ))}
    (hnz : e.mkNoise ρ.noise = .ok noise) (hl : LearnsBy n lb noise e.updatePm p.mu p.sd)
    (hsam : e.sample = fun b ω => b.sample size ω) (hbn : b.n = n) (hbl : b.lb = lb)
    {res : EdaResult (List ℝ) ℝ} {s : St (List ℝ) ℝ (UniGauss ℝ)}
    (hrun : minimize env e (fun _ => g) ftol b ρ = .ok (res, s)) {t : ℕ} (h1 : 1 ≤ t)
    (h2 : t < res.history.length) {target : Fin n → ℝ} {δ : ℝ}
    (hit : (ρ.sample, ρ.sample t) ∈ p.hits target δ t) : EvaluatedNear target δ s := by
  obtain ⟨s1, s2, brk, noise', hvis, hnz', hst, hlog⟩ := minimize_pass hv hrun h1 h2
  rw [hnz] at hnz'
  obtain rfl := Except.ok.inj hnz'
  obtain ⟨k, rfl⟩ : ∃ k, t = k + 1 := ⟨t - 1, by omega⟩
  have hf := (visited_follows hv hp hnz hl hsam hbn hbl hvis).2
  simp only [Nat.add_sub_cancel] at hf
  have hf2 := step_follows hv hp hl hsam hf hst
  cases hg : s.log[k + 1]? with
  | none => rw [hg] at hlog; cases hlog
  | some batch =>
    rw [hg] at hlog
    simp only [Option.map_some, Option.some.injEq] at hlog
    have : List.ofFn (fun j : Fin n => p.mu (p.sel ρ.sample k) j + p.sd (p.sel ρ.sample k) j * ρ.sample (k + 1) 0 j) ∈
        batch.map Prod.fst := by
      rw [hlog, hf2.gen]
      refine List.mem_map.2 ⟨_, ?_, rfl⟩
      simp only [PureRun.pops]
      exact List.mem_map.2 ⟨0, List.mem_range.2 (by rw [hp.gens]; omega), rfl⟩
    obtain ⟨q, hq, he⟩ := List.mem_map.1 this
    exact ⟨q, List.mem_flatten.2 ⟨batch, List.mem_of_getElem? hg, hq⟩, _, he, hit⟩

/-- The probability that the first `T` generations all miss the box. -/
theorem near_probability (hv : env.Valid) {p : PureRun n} {lb : ℝ} {size : ℤ}
    (hp : RunsAs p env e g size ρ.init) (hpos : 1 ≤ size) {noise : Gen (List ℝ) → Except PyErr (Gen (List ℝ))}
    (hnz : e.mkNoise ρ.noise = .ok noise) (hl : LearnsBy n lb noise e.updatePm p.mu p.sd)
    (hsam : e.sample = fun b ω => b.sample size ω) (hbn : b.n = n) (hbl : b.lb = lb)
    (hcs : ComparisonSort env.argsort) (hcm : Measurable p.cost)
    (hmu : ∀ j, Measurable fun P => p.mu P j) (hsd : ∀ j, Measurable fun P => p.sd P j)
    {target : Fin n → ℝ} {M l S δ : ℝ} (hl0 : 0 < l) (hδ : 0 < δ) (ht : ∀ j, |target j| ≤ M)
    (hM : ∀ ω k j, |p.mu (p.sel ω k) j| ≤ M) (hS : ∀ ω k j, l ≤ p.sd (p.sel ω k) j ∧ p.sd (p.sel ω k) j ≤ S) (T : ℕ) :
    eachGen normalDraws {ω | ∃ res s, minimize env e (fun _ => g) ftol b { ρ with sample := ω } = .ok (res, s) ∧
        T ≤ res.history.length ∧ ¬ EvaluatedNear target δ s} ≤
      (1 - gaussLow (2 * M / l) (δ / S) ^ n) ^ (T - 1) := by
  have hcs' : ComparisonSort p.srt := by rw [hp.srt]; exact hcs
  refine le_trans (measure_mono ?_) (allMiss_le (t0 := 1) normalDraws (H := p.hits target δ)
    (fun t => p.hits_measurable hcs' hcm hmu hsd target δ t) (fun t ω ω' x h => p.hits_past target δ t ω ω' x h)
    (fun t _ ω => normal_box (n := n) (M := M) (l := l) (S := S) hl0 hδ (hM ω (t - 1)) (hS ω (t - 1)) ht) (T - 1))
  rintro ω ⟨res, s, hrun, hT, hne⟩ t h1 h2 hit
  exact hne (near_of_hit (ρ := { ρ with sample := ω }) hv hp hpos hnz hl hsam hbn hbl hrun h1 (by omega) hit)

end link

end Verif
