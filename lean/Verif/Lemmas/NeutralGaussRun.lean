/-
Runs of UMDAc and PBIL that differ only in the draws of a variable that the cost function ignores.
-/
import Verif.Lemmas.NeutralGauss
import Verif.Lemmas.NeutralRun
import Verif.Lemmas.Equivariance

set_option linter.unusedSectionVars false

namespace Verif

open PyCost Spec MeasureTheory

/-! ### Learning with weights -/

/-- From `k` selected individuals the model learns, for each variable, the sum of the values with
weights `w k` and the deviation; or it raises the exception `E k`. -/
structure LocLearn (n : ℕ) (w : ℕ → ℕ → ℝ) (E : ℕ → Option PyErr)
    (learn : UniGauss ℝ → Gen (List ℝ) → Gen (List ℝ) → Draws ℝ → Except PyErr (UniGauss ℝ)) : Prop where
  eq : ∀ b g el ω, b.n = n → g.cols = n → learn b g el ω = match E g.rows.length with
    | some err => .error err
    | none => .ok { b with
        mean := (List.range n).map (fun j => wsum (w g.rows.length) (col g.rows j))
        std := (List.range n).map (fun j => max (Real.sqrt (Spec.variance (col g.rows j))) b.lb) }
  sum : ∀ k, E k = none → ∑ i ∈ Finset.range k, w k i = 1
  pos : ∀ k, E k = none → k ≠ 0

theorem locLearn_umdac {n : ℕ} (hn : 0 < n) :
    LocLearn n (fun k _ => 1 / (k : ℝ)) (fun k => if k = 0 then some .notModelled else none)
      (fun b g _ _ => b.learn Real.sqrt g) where
  eq := by
    intro b g el ω hb hc
    by_cases h0 : g.rows = []
    · unfold UniGauss.learn
      rw [if_neg (by omega), if_neg (by omega), if_pos h0]
      simp [h0]
    · have hl : g.rows.length ≠ 0 := fun h => h0 (List.length_eq_zero_iff.1 h)
      rw [UniGauss.learn_eq (by omega) (by omega) h0, if_neg hl, hb]
      simp only
      congr 2
      refine List.map_congr_left fun j _ => ?_
      rw [mean_wsum, col_length]
  sum := by
    intro k hk
    have : k ≠ 0 := by rintro rfl; simp at hk
    simp only [Finset.sum_const, Finset.card_range, nsmul_eq_mul]
    field_simp
  pos := by rintro k hk rfl; simp at hk

/-- The weights of `PBIL`. -/
noncomputable def pbilWeight (α : ℝ) (k i : ℕ) : ℝ :=
  (1 - α) / k + α * ((if i = 0 then 1 else 0) + (if i = 1 then 1 else 0) - (if i = k - 1 then 1 else 0))

theorem pick_sum {k a : ℕ} (ha : a < k) (F : ℕ → ℝ) :
    ∑ i ∈ Finset.range k, (if i = a then (1 : ℝ) else 0) * F i = F a := by
  rw [Finset.sum_eq_single a]
  · simp
  · intro b _ hb; simp [hb]
  · intro h; exact absurd (Finset.mem_range.2 ha) h

theorem locLearn_pbil {n : ℕ} (hn : 0 < n) (α : ℝ) :
    LocLearn n (pbilWeight α) (fun k => if k < 2 then some .indexError else none)
      (fun b g _ _ => b.learnAdapt Real.sqrt α g) where
  eq := by
    intro b g el ω hb hc
    by_cases h0 : g.rows.length < 2
    · rw [if_pos h0]
      unfold UniGauss.learnAdapt
      rw [if_neg (by omega), if_neg (by omega), List.getElem?_eq_none (i := 1) (by omega)]
      cases g.rows[0]? <;> rfl
    · rw [if_neg h0]
      unfold UniGauss.learnAdapt
      rw [if_neg (by omega), if_neg (by omega), List.getElem?_eq_getElem (i := 0) (by omega),
        List.getElem?_eq_getElem (i := 1) (by omega), List.getLast?_eq_getElem?,
        List.getElem?_eq_getElem (i := g.rows.length - 1) (by omega), hb]
      simp only [colStd_eq, floorStd_eq]
      congr 2
      refine List.map_congr_left fun j _ => ?_
      have hk : ∀ k (hk : k < g.rows.length), (col g.rows j).getD k 0 = (g.rows[k]).getD j 0 := by
        intro k hk
        simp [col, List.getD_eq_getElem?_getD, hk]
      rw [← hk 0 (by omega), ← hk 1 (by omega), ← hk (g.rows.length - 1) (by omega), colMean_eq, mean_wsum]
      unfold wsum pbilWeight
      rw [col_length]
      have e : ∀ i, ((1 - α) / (g.rows.length : ℝ) + α * ((if i = 0 then 1 else 0) + (if i = 1 then 1 else 0) -
          (if i = g.rows.length - 1 then 1 else 0))) * (col g.rows j).getD i 0 =
          (1 - α) * (1 / (g.rows.length : ℝ) * (col g.rows j).getD i 0) +
          α * ((if i = 0 then 1 else 0) * (col g.rows j).getD i 0 +
            (if i = 1 then 1 else 0) * (col g.rows j).getD i 0 -
            (if i = g.rows.length - 1 then 1 else 0) * (col g.rows j).getD i 0) := by intro i; ring
      simp only [e]
      simp only [Finset.sum_add_distrib, Finset.sum_sub_distrib, ← Finset.mul_sum]
      rw [pick_sum (by omega), pick_sum (by omega), pick_sum (by omega)]
  sum := by
    intro k hk
    have h2 : ¬ k < 2 := by intro h; simp [h] at hk
    unfold pbilWeight
    rw [Finset.sum_add_distrib, ← Finset.mul_sum, Finset.sum_sub_distrib, Finset.sum_add_distrib]
    have := fun a (ha : a < k) => pick_sum ha (fun _ => 1)
    simp only [mul_one] at this
    rw [this 0 (by omega), this 1 (by omega), this (k - 1) (by omega)]
    have : (k : ℝ) ≠ 0 := by have : k ≠ 0 := by omega
                             exact_mod_cast this
    simp only [Finset.sum_const, Finset.card_range, nsmul_eq_mul]
    field_simp
    ring
  pos := by
    intro k hk
    have h2 : ¬ k < 2 := by intro h; simp [h] at hk
    omega

/-- How far `PBIL` moves the mean, in squared deviations. -/
theorem pbilWeight_square {α : ℝ} {k : ℕ} (hk : 3 ≤ k) :
    ∑ i ∈ Finset.range k, pbilWeight α k i ^ 2 = (1 - α ^ 2) / k + 3 * α ^ 2 := by
  have e : ∀ i ∈ Finset.range k, pbilWeight α k i ^ 2 = ((1 - α) / k) ^ 2 +
      (2 * ((1 - α) / k) * α + α ^ 2) * (if i = 0 then 1 else 0) +
      (2 * ((1 - α) / k) * α + α ^ 2) * (if i = 1 then 1 else 0) +
      (α ^ 2 - 2 * ((1 - α) / k) * α) * (if i = k - 1 then 1 else 0) := by
    intro i _
    unfold pbilWeight
    by_cases h0 : i = 0
    · rw [if_pos h0, if_neg (by omega), if_neg (by omega)]; ring
    · by_cases h1 : i = 1
      · rw [if_neg h0, if_pos h1, if_neg (by omega)]; ring
      · rw [if_neg h0, if_neg h1]
        split <;> ring
  have := fun a (ha : a < k) => pick_sum ha (fun _ => 1)
  simp only [mul_one] at this
  rw [Finset.sum_congr rfl e, Finset.sum_add_distrib, Finset.sum_add_distrib, Finset.sum_add_distrib,
    ← Finset.mul_sum, ← Finset.mul_sum, ← Finset.mul_sum, this 0 (by omega), this 1 (by omega),
    this (k - 1) (by omega)]
  have : (k : ℝ) ≠ 0 := by have : k ≠ 0 := by omega
                           exact_mod_cast this
  simp only [Finset.sum_const, Finset.card_range, nsmul_eq_mul]
  field_simp
  ring

theorem wsum_affine {w : ℕ → ℝ} {l : List ℝ} (h : ∑ i ∈ Finset.range l.length, w i = 1) (c b : ℝ) :
    wsum w (l.map (fun x => c * x + b)) = b + c * wsum w l := by
  unfold wsum
  rw [List.length_map, Finset.mul_sum]
  have e : ∀ i ∈ Finset.range l.length, w i * (l.map (fun x => c * x + b)).getD i 0 =
      w i * b + c * (w i * l.getD i 0) := by
    intro i hi
    have hi := Finset.mem_range.1 hi
    simp only [List.getD_eq_getElem?_getD, List.getElem?_map, List.getElem?_eq_getElem hi, Option.map_some,
      Option.getD_some]
    ring
  rw [Finset.sum_congr rfl e, Finset.sum_add_distrib, ← Finset.sum_mul, h, one_mul]

/-! ### Two runs side by side -/

/-- Models with the same settings. -/
structure OffGauss0 (n : ℕ) (lb : ℝ) (m m' : UniGauss ℝ) : Prop where
  size : m.n = n
  size' : m'.n = n
  floor : m.lb = lb
  floor' : m'.lb = lb

/-- Models that differ at most in the mean and the deviation of variable `j`. -/
structure OffGauss (n j : ℕ) (lb : ℝ) (m m' : UniGauss ℝ) : Prop where
  good : m.Good n lb
  good' : m'.Good n lb
  mean : AgreeOff j m.mean m'.mean
  std : AgreeOff j m.std m'.std

section sim
variable {base : BaseCfg ℝ (List ℝ)} {cfg : UMDAcCfg ℝ} {ρ : Rand (Draws ℝ)} {j n : ℕ} {lb : ℝ}
variable {e : Eda (List ℝ) (UniGauss ℝ) (Draws ℝ)} {b : UniGauss ℝ}
variable {w : ℕ → ℕ → ℝ} {E : ℕ → Option PyErr}
variable {learn : UniGauss ℝ → Gen (List ℝ) → Gen (List ℝ) → Draws ℝ → Except PyErr (UniGauss ℝ)}

theorem loc_good (hl : LocLearn n w E learn) {m m' : UniGauss ℝ} {g el : Gen (List ℝ)} {ω : Draws ℝ}
    (hn : m.n = n) (hlb : m.lb = lb) (hc : g.cols = n) (h : learn m g el ω = .ok m') :
    E g.rows.length = none ∧ m'.Good n lb ∧
      m'.mean = (List.range n).map (fun j => wsum (w g.rows.length) (col g.rows j)) ∧
      m'.std = (List.range n).map (fun j => max (Real.sqrt (Spec.variance (col g.rows j))) lb) := by
  rw [hl.eq m g el ω hn hc] at h
  cases hE : E g.rows.length with
  | some err => rw [hE] at h; cases h
  | none =>
    rw [hE] at h
    obtain rfl := Except.ok.inj h
    refine ⟨rfl, ⟨hn, hlb, by simp, by simp, ?_⟩, rfl, by rw [hlb]⟩
    intro s hs
    simp only [List.mem_map] at hs
    obtain ⟨j, _, rfl⟩ := hs
    exact (Real.sqrt_nonneg _).trans (le_max_left _ _)

theorem off_gauss_learn (hl : LocLearn n w E learn) {m m' : UniGauss ℝ} (hm : OffGauss0 n lb m m')
    {g g' el el' : Gen (List ℝ)} (hg : GenRel (OffRel n j) n n g g') (ω : Draws ℝ) :
    ExRel (OffGauss n j lb) (learn m g el ω) (learn m' g' el' ω) := by
  have hlen : g'.rows.length = g.rows.length := hg.rows.length_eq.symm
  rcases h : learn m g el ω with err | x
  · have h1 := hl.eq m g el ω hm.size hg.cols
    have h2 := hl.eq m' g' el' ω hm.size' hg.cols'
    rw [h] at h1
    rw [hlen] at h2
    cases hE : E g.rows.length with
    | some err' =>
      rw [hE] at h1 h2
      simp only at h1 h2
      rw [h2, ← h1]
      exact .error _
    | none => rw [hE] at h1; cases h1
  · obtain ⟨a1, a2, a3, a4⟩ := loc_good hl hm.size hm.floor hg.cols h
    have h2 := hl.eq m' g' el' ω hm.size' hg.cols'
    rw [hlen, a1] at h2
    simp only at h2
    obtain ⟨_, b2, b3, b4⟩ := loc_good hl hm.size' hm.floor' hg.cols' h2
    rw [h2]
    refine .ok ⟨a2, b2, ?_, ?_⟩
    · intro k hk
      rw [a3, b3]
      simp only [List.getElem?_map, hlen]
      rcases Nat.lt_or_ge k n with hkn | hkn
      · rw [List.getElem?_range hkn]; simp [off_col hk hg.rows]
      · rw [List.getElem?_eq_none (by simpa using hkn)]; rfl
    · intro k hk
      rw [a4, b4]
      simp only [List.getElem?_map]
      rcases Nat.lt_or_ge k n with hkn | hkn
      · rw [List.getElem?_range hkn]; simp [off_col hk hg.rows]
      · rw [List.getElem?_eq_none (by simpa using hkn)]; rfl

theorem off_gauss_sample {m m' : UniGauss ℝ} (hm : OffGauss n j lb m m') (size : ℤ) {ω ω' : Draws ℝ}
    (hω : ∀ i k, k ≠ j → ω' i k = ω i k) :
    ExRel (GenRel (OffRel n j) n n) (m.sample size ω) (m'.sample size ω') := by
  rcases lt_or_ge size 0 with hs | hs
  · have key : ∀ {m : UniGauss ℝ} (ω : Draws ℝ), m.Good n lb → m.sample size ω = .error .valueError := by
      intro m ω h
      unfold UniGauss.sample
      split
      · rfl
      · rfl
    rw [key ω hm.good, key ω' hm.good']
    exact .error _
  · rw [UniGauss.sample_eq hm.good hs, UniGauss.sample_eq hm.good' hs]
    refine .ok ⟨rfl, rfl, rfl, ?_⟩
    simp only
    generalize List.range size.toNat = l
    induction l with
    | nil => exact .nil
    | cons i l ih =>
      refine .cons ⟨by simp, by simp, ?_⟩ ih
      intro k hk
      simp only [List.getElem?_map]
      rcases Nat.lt_or_ge k n with hkn | hkn
      · rw [List.getElem?_range hkn]
        simp only [Option.map_some, List.getD_eq_getElem?_getD, hm.mean k hk, hm.std k hk, hω i k hk]
      · rw [List.getElem?_eq_none (by simpa using hkn)]; rfl

theorem no_noise (hm : MkOk id base (contInitSample id cfg) learn (fun b ω => b.sample cfg.base.sizeGen ω) e)
    (hz : base.noiseAttr = 0) {ω : Draws ℝ} {N : Gen (List ℝ) → Except PyErr (Gen (List ℝ))}
    (hN : e.mkNoise ω = .ok N) : N = addNoise .zero := by
  rw [hm.mkNoise, hz] at hN
  simp [mkWhiteNoise] at hN
  exact hN.symm

theorem addNoise_zero_eq {g g' : Gen (List ℝ)} (h : addNoise .zero g = .ok g') : g' = g := by
  unfold addNoise at h
  cases hd : g.dt <;> simp only [hd] at h <;> first | exact (Except.ok.inj h).symm | cases h

/-- Two runs whose draws differ only for variable `j`. -/
theorem off_gauss_sim (hm : MkOk id base (contInitSample id cfg) learn (fun b ω => b.sample cfg.base.sizeGen ω) e)
    (hnv : base.nVars = cfg.base.nVars) (hz : base.noiseAttr = 0)
    (hdata : ∀ d, base.initData = some d → Rect base.nVars d.rows)
    (hl : LocLearn cfg.base.nVars w E learn) (lb : ℝ) (u : ℕ × ℕ → ℝ) :
    EdaSim (OffRel cfg.base.nVars j) cfg.base.nVars cfg.base.nVars (OffGauss0 cfg.base.nVars lb)
      (OffGauss cfg.base.nVars j lb) e e ρ (withColumn ρ j u) := by
  refine ⟨rfl, rfl, rfl, rfl, rfl, rfl, ?_, ?_, ?_, ?_, fun _ _ h => ⟨h.good.n, h.good'.n, h.good.lb, h.good'.lb⟩⟩
  · change ExRel _ (e.initGen ρ.init) (e.initGen ρ.init)
    rcases hx : e.initGen ρ.init with err | g
    · exact .error _
    · have hc : g.cols = cfg.base.nVars ∧ Rect cfg.base.nVars g.rows := by
        cases hd : base.initData with
        | none =>
          rw [hm.initNone hd] at hx
          obtain ⟨_, h1, h2, _⟩ := contInit_shape hx
          exact ⟨h1, h2⟩
        | some d =>
          rw [(hm.initSome d hd).2] at hx
          obtain rfl := Except.ok.inj hx
          rw [← hnv]
          exact ⟨(hm.initSome d hd).1, hdata d hd⟩
      exact .ok ⟨rfl, hc.1, hc.1, forall₂_refl hc.2⟩
  · change ExRel _ (e.mkNoise ρ.noise) (e.mkNoise ρ.noise)
    rcases hx : e.mkNoise ρ.noise with err | N
    · exact .error _
    · refine .ok fun g g' hg => ?_
      rw [no_noise hm hz hx]
      unfold addNoise
      simp only [hg.dt]
      cases g.dt <;> first | exact .ok hg | exact .error _
  · intro t m m' g g' el el' hmm hg _
    rw [hm.updatePm]
    exact off_gauss_learn hl hmm hg _
  · intro t m m' hmm
    rw [hm.sample]
    refine off_gauss_sample hmm _ fun i k hk => ?_
    simp [withColumn, hk]

/-! ### The ignored variable -/

variable {C : Type} [PyCost C] {env : Env C} {f : ℕ → List ℝ → C} {ftol : C}
variable {N : Gen (List ℝ) → Except PyErr (Gen (List ℝ))}

/-- What a pass does to the model and the values of variable `j`. -/
theorem gauss_column_step
    (hm : MkOk id base (contInitSample id cfg) learn (fun b ω => b.sample cfg.base.sizeGen ω) e)
    (hz : base.noiseAttr = 0) (hl : LocLearn cfg.base.nVars w E learn) (hj : j < cfg.base.nVars)
    (hN : e.mkNoise ρ.noise = .ok N) {ρ' : Rand (Draws ℝ)} {t : ℕ} {s s' : St (List ℝ) C (UniGauss ℝ)}
    {brk : Bool} (hn : s.pm.n = cfg.base.nVars) (hlb : s.pm.lb = lb) (hc : s.gen.cols = cfg.base.nVars)
    (hst : step env e f ftol ρ' N t s = .ok (s', brk)) {sel : List (List ℝ)}
    (hsel : sel = takeIdx (s.gen.rows ++ s.elite.rows)
      (sliceTo (env.argsort (s.evals ++ s.evalsElite)) e.truncLen)) :
    ∃ x d, x = wsum (w sel.length) (col sel j) ∧ d = max (Real.sqrt (Spec.variance (col sel j))) lb ∧
      E sel.length = none ∧ s'.pm.mean[j]? = some x ∧ s'.pm.std[j]? = some d ∧
      col s'.gen.rows j = (List.range cfg.base.sizeGen.toNat).map (fun i => x + d * ρ'.sample t i j) ∧
      s'.elite.rows = takeIdx (s.gen.rows ++ s.elite.rows)
        (sliceTo (env.argsort (s.evals ++ s.evalsElite)) e.eliteLen) := by
  obtain ⟨s1, noisy, ev, best, i, ind, hs⟩ := step_ok hst
  have hz' := hs.noise
  rw [no_noise hm hz hN] at hz'
  have hz' := addNoise_zero_eq hz'
  subst hz'
  have ht : s1.gen.rows = sel ∧ s1.gen.cols = cfg.base.nVars ∧
      s1.elite.rows = takeIdx (s.gen.rows ++ s.elite.rows)
        (sliceTo (env.argsort (s.evals ++ s.evalsElite)) e.eliteLen) := by
    have := hs.trunc
    unfold truncation Gen.concat at this
    split at this
    · simp at this
    · rename_i g hg
      split at hg
      · simp only [Except.ok.injEq] at hg this
        subst hg
        subst this
        exact ⟨hsel.symm, hc, rfl⟩
      · simp at hg
  have hu := hs.update
  rw [hm.updatePm] at hu
  obtain ⟨a1, a2, a3, a4⟩ := loc_good hl hn hlb ht.2.1 hu
  rw [ht.1] at a1 a3 a4
  have hsm := hs.sample
  rw [hm.sample] at hsm
  have hsz : 0 ≤ cfg.base.sizeGen := by
    by_contra hneg
    simp only at hsm
    unfold UniGauss.sample at hsm
    split at hsm
    · cases hsm
    rw [if_pos (by omega)] at hsm
    cases hsm
  simp only at hsm
  rw [UniGauss.sample_eq a2 hsz] at hsm
  have hgen := (Except.ok.inj hsm)
  have m1 : s'.pm.mean[j]? = some (wsum (w sel.length) (col sel j)) := by
    rw [a3]; simp [hj]
  have m2 : s'.pm.std[j]? = some (max (Real.sqrt (Spec.variance (col sel j))) lb) := by
    rw [a4]; simp [hj]
  refine ⟨_, _, rfl, rfl, a1, m1, m2, ?_, by rw [hs.elite, ht.2.2]⟩
  rw [← hgen, col, List.map_map]
  refine List.map_congr_left fun k _ => ?_
  simp only [Function.comp_apply, List.getD_eq_getElem?_getD, List.getElem?_map, List.getElem?_range hj,
    Option.map_some, Option.getD_some, m1, m2]

/-- The state `s` after pass `t` of a run, the states `S u` after this pass in the runs that use `u`
for variable `j`, and the mean `M u` and deviation `D u` of variable `j` in them.  `r` is the part of the
first variance `v` expected to be left. -/
structure Wandering (cfg : UMDAcCfg ℝ) (j t : ℕ) (lb m v c k r : ℝ) (s : St (List ℝ) C (UniGauss ℝ))
    (S : (ℕ × ℕ → ℝ) → St (List ℝ) C (UniGauss ℝ)) (M D : (ℕ × ℕ → ℝ) → ℝ) : Prop where
  aligned : Aligned s
  elite : s.elite.rows = []
  rel : ∀ u, StRel (OffRel cfg.base.nVars j) cfg.base.nVars cfg.base.nVars
    (OffGauss0 cfg.base.nVars lb) s (S u)
  mean : ∀ u, (S u).pm.mean[j]? = some (M u)
  std : ∀ u, (S u).pm.std[j]? = some (D u)
  cell : ∀ u, col (S u).gen.rows j =
    (List.range cfg.base.sizeGen.toNat).map (fun i => M u + D u * u (t, i))
  measM : Measurable M
  measD : Measurable D
  depM : DependsOn M (early cfg.base.sizeGen.toNat t : Set (ℕ × ℕ))
  depD : DependsOn D (early cfg.base.sizeGen.toNat t : Set (ℕ × ℕ))
  memM : MemLp M 2 normalCells
  memD : MemLp D 2 normalCells
  nonneg : ∀ u, 0 ≤ D u ∧ lb ≤ D u
  emean : ∫ u, M u ∂normalCells = m
  low : r * v ≤ ∫ u, D u ^ 2 ∂normalCells
  high : ∫ u, D u ^ 2 ∂normalCells ≤ r * v + k * max lb 0 ^ 2
  /-- without a lower bound, what the deviation loses is found in the mean -/
  spread : lb ≤ 0 → ∫ u, M u ^ 2 ∂normalCells = m ^ 2 + c * k * (1 - r) * v

theorem off_gauss_step (hv : env.Valid)
    (hm : MkOk id base (contInitSample id cfg) learn (fun b ω => b.sample cfg.base.sizeGen ω) e)
    (hnv : base.nVars = cfg.base.nVars) (hz : base.noiseAttr = 0)
    (hdata : ∀ d, base.initData = some d → Rect base.nVars d.rows)
    (hl : LocLearn cfg.base.nVars w E learn)
    (hf : Ignores cfg.base.nVars j f) (hN : e.mkNoise ρ.noise = .ok N) {t : ℕ}
    {s s' : St (List ℝ) C (UniGauss ℝ)} {brk : Bool} (hst : step env e f ftol ρ N t s = .ok (s', brk))
    (S : (ℕ × ℕ → ℝ) → St (List ℝ) C (UniGauss ℝ))
    (hrel : ∀ u, StRel (OffRel cfg.base.nVars j) cfg.base.nVars cfg.base.nVars
      (OffGauss0 cfg.base.nVars lb) s (S u)) :
    ∃ S' : (ℕ × ℕ → ℝ) → St (List ℝ) C (UniGauss ℝ), ∀ u,
      step env e f ftol (withColumn ρ j u) N t (S u) = .ok (S' u, brk) ∧
      StRel (OffRel cfg.base.nVars j) cfg.base.nVars cfg.base.nVars
        (OffGauss0 cfg.base.nVars lb) s' (S' u) := by
  have key : ∀ u, ∃ y, step env e f ftol (withColumn ρ j u) N t (S u) = .ok (y, brk) ∧
      StRel (OffRel cfg.base.nVars j) cfg.base.nVars cfg.base.nVars
        (OffGauss0 cfg.base.nVars lb) s' y := by
    intro u
    have hsim := off_gauss_sim (ρ := ρ) (j := j) hm hnv hz hdata hl lb u
    have hn := hsim.noise
    have hN' : e.mkNoise (withColumn ρ j u).noise = .ok N := hN
    rw [hN, hN'] at hn
    obtain ⟨hn⟩ := hn
    have hs := step_sim (f := f) (f' := f) (ftol := ftol) hv hsim
      (fun k r r' hr => hf k r r' hr.1 hr.2.1 hr.2.2) hn t (hrel u)
    rw [hst] at hs
    rcases hx : step env e f ftol (withColumn ρ j u) N t (S u) with err | ⟨y, b'⟩
    · rw [hx] at hs; cases hs
    · rw [hx] at hs
      obtain ⟨h1, h2⟩ := hs
      simp only at h1 h2
      subst h2
      exact ⟨y, rfl, h1⟩
  choose S' hS using key
  exact ⟨S', hS⟩

theorem wandering_step (hv : env.Valid)
    (hm : MkOk id base (contInitSample id cfg) learn (fun b ω => b.sample cfg.base.sizeGen ω) e)
    (hnv : base.nVars = cfg.base.nVars) (hsz : base.sizeGen = cfg.base.sizeGen) (hz : base.noiseAttr = 0)
    (hdata : ∀ d, base.initData = some d → Rect base.nVars d.rows)
    (hl : LocLearn cfg.base.nVars w E learn) (hj : j < cfg.base.nVars)
    (hf : Ignores cfg.base.nVars j f) (ht1 : 1 ≤ e.truncLen) (ht2 : e.truncLen ≤ e.sizeGen)
    (he : e.eliteLen = 0) (hN : e.mkNoise ρ.noise = .ok N) {t : ℕ} {m v c k r : ℝ}
    (hk : k = (e.truncLen.toNat : ℝ))
    (hc : c = ∑ i ∈ Finset.range e.truncLen.toNat, w e.truncLen.toNat i ^ 2)
    {s s' : St (List ℝ) C (UniGauss ℝ)} {brk : Bool} {S : (ℕ × ℕ → ℝ) → St (List ℝ) C (UniGauss ℝ)}
    {M D : (ℕ × ℕ → ℝ) → ℝ} (hd : Wandering cfg j t lb m v c k r s S M D)
    (hst : step env e f ftol ρ N (t + 1) s = .ok (s', brk)) :
    ∃ S' M' D', (∀ u, step env e f ftol (withColumn ρ j u) N (t + 1) (S u) = .ok (S' u, brk)) ∧
      Wandering cfg j (t + 1) lb m v c k ((1 - 1 / k) * r) s' S' M' D' := by
  obtain ⟨S', hS⟩ := off_gauss_step hv hm hnv hz hdata hl hf hN hst S hd.rel
  have hsz : e.sizeGen = cfg.base.sizeGen := by rw [hm.sizeGen, hsz]
  have hlen : s.gen.rows.length = cfg.base.sizeGen.toNat := by
    have h1 := congrArg List.length (hd.cell fun _ => 0)
    rw [col_length, List.length_map, List.length_range] at h1
    rw [← h1]
    exact ((hd.rel fun _ => 0).gen.rows).length_eq
  have hevl : s.evals.length = cfg.base.sizeGen.toNat := by rw [hd.aligned.1, hlen]
  have hee : s.evalsElite = [] := by
    have := hd.aligned.2
    rw [hd.elite] at this
    exact List.length_eq_zero_iff.1 this
  set idx := sliceTo (env.argsort s.evals) e.truncLen with hidx
  have hperm := hv.argsort.perm s.evals
  have hidxl : idx.length = e.truncLen.toNat := by
    rw [hidx, length_sliceTo, hperm.length_eq, List.length_range, hevl]
    unfold sliceLen
    rw [if_pos (by omega)]
    omega
  have hidxm : ∀ i ∈ idx, i < cfg.base.sizeGen.toNat := by
    intro i hi
    rw [hidx, sliceTo_eq_take] at hi
    have := hperm.mem_iff.1 (List.mem_of_mem_take hi)
    rw [List.mem_range, hevl] at this
    exact this
  have hnd : idx.Nodup := by
    rw [hidx, sliceTo_eq_take]
    exact (List.take_sublist _ _).nodup (hperm.nodup_iff.2 List.nodup_range)
  have hne : idx ≠ [] := by
    intro h0
    rw [h0] at hidxl
    simp at hidxl
    omega
  set W := w idx.length with hW
  have hcol : ∀ u, (S' u).pm.mean[j]? = some (nextLoc t idx W M D u) ∧
      (S' u).pm.std[j]? = some (nextDev t idx lb D u) ∧
      col (S' u).gen.rows j = (List.range cfg.base.sizeGen.toNat).map
        (fun i => nextLoc t idx W M D u + nextDev t idx lb D u * u (t + 1, i)) := by
    intro u
    have hr := hd.rel u
    obtain ⟨x, d, hx, hdd, hE, c1, c2, c3, _⟩ := gauss_column_step (ρ := ρ) hm hz hl hj hN hr.pm.size' hr.pm.floor'
      hr.gen.cols' (hS u).1 rfl
    have hel : (S u).elite.rows = [] := by
      have := hr.elite.rows
      rw [hd.elite] at this
      exact List.forall₂_nil_left_iff.1 this
    have hsel : col (takeIdx ((S u).gen.rows ++ (S u).elite.rows)
        (sliceTo (env.argsort ((S u).evals ++ (S u).evalsElite)) e.truncLen)) j =
        (cellDraws t idx u).map (fun z => D u * z + M u) := by
      rw [hel, hr.evals, hr.evalsElite, hee, List.append_nil, List.append_nil, ← hidx,
        col_takeIdx _ (fun i => M u + D u * u (t, i))]
      · unfold cellDraws
        rw [List.map_map]
        refine List.map_congr_left fun i _ => ?_
        simp only [Function.comp_apply]
        ring
      · intro i hi
        rw [← hr.gen.rows.length_eq, hlen]
        exact hidxm i hi
      · intro i hi
        rw [← hr.gen.rows.length_eq, hlen] at hi
        rw [hd.cell u, List.getElem?_map, List.getElem?_range hi]
        rfl
    have hsl := congrArg List.length hsel
    rw [col_length, List.length_map, cellDraws_length] at hsl
    rw [hsl] at hx hE
    have hx' : x = nextLoc t idx W M D u := by
      rw [hx, hsel, wsum_affine (by rw [cellDraws_length]; exact hl.sum _ hE)]
      rfl
    have hd' : d = nextDev t idx lb D u := by
      rw [hdd, hsel, variance_affine (by simpa [cellDraws] using hne)]
      unfold nextDev
      rw [sq]
    subst hx' hd'
    refine ⟨c1, c2, ?_⟩
    rw [c3]
    simp [withColumn]
  have hD2 := nextDev_bounds (lb := lb) hd.measD hd.depD hd.memD hne hnd
  have hk0 : 0 < k := by
    rw [hk]
    have : 0 < e.truncLen.toNat := by omega
    exact_mod_cast this
  have hfac : 0 ≤ 1 - 1 / k := by
    rw [sub_nonneg, div_le_one hk0, hk]
    have : 1 ≤ e.truncLen.toNat := by omega
    exact_mod_cast this
  rw [hidxl, ← hk] at hD2
  refine ⟨S', nextLoc t idx W M D, nextDev t idx lb D, fun u => (hS u).1, ?_⟩
  refine ⟨step_aligned hv hd.aligned hst, ?_, fun u => (hS u).2, fun u => (hcol u).1, fun u => (hcol u).2.1,
    fun u => (hcol u).2.2, nextLoc_measurable hd.measM hd.measD, nextDev_measurable hd.measD hne,
    nextLoc_depends hd.depM hd.depD hidxm, nextDev_depends hd.depD hidxm,
    nextLoc_memLp hd.memM hd.measD hd.depD hd.memD, nextDev_memLp hd.measD hd.depD hd.memD hne,
    fun u => ⟨(nextDev_sq u).2.2, le_max_right _ _⟩, ?_, ?_, ?_, ?_⟩
  · have hr := hd.rel fun _ => 0
    obtain ⟨_, _, _, _, _, _, _, _, c5⟩ := gauss_column_step (ρ := ρ) hm hz hl hj hN hr.pm.size hr.pm.floor
      hr.gen.cols hst rfl
    rw [c5, he]
    simp [sliceTo, takeIdx]
  · rw [nextLoc_mean hd.memM hd.measD hd.depD hd.memD, hd.emean]
  · refine le_trans ?_ hD2.1
    rw [mul_assoc]
    exact mul_le_mul_of_nonneg_left hd.low hfac
  · refine hD2.2.trans ?_
    have := mul_le_mul_of_nonneg_left hd.high hfac
    have e1 : (1 - 1 / k) * (k * max lb 0 ^ 2) = k * max lb 0 ^ 2 - max lb 0 ^ 2 := by field_simp
    nlinarith
  · intro h0
    have hDe : ∫ u, D u ^ 2 ∂normalCells = r * v := by
      have h1 := hd.low
      have h2 := hd.high
      rw [max_eq_right h0] at h2
      linarith
    rw [nextLoc_square hd.measM hd.depM hd.memM hd.measD hd.depD hd.memD hnd, hd.spread h0, hDe, hW, hidxl, ← hc]
    field_simp
    ring

/-- The first pass: the selected individuals do not depend on the draws of the variable. -/
theorem wandering_first (hv : env.Valid)
    (hm : MkOk id base (contInitSample id cfg) learn (fun b ω => b.sample cfg.base.sizeGen ω) e)
    (hnv : base.nVars = cfg.base.nVars) (hz : base.noiseAttr = 0)
    (hdata : ∀ d, base.initData = some d → Rect base.nVars d.rows)
    (hl : LocLearn cfg.base.nVars w E learn) (hj : j < cfg.base.nVars)
    (hf : Ignores cfg.base.nVars j f) (he : e.eliteLen = 0) (hN : e.mkNoise ρ.noise = .ok N)
    (hbn : b.n = cfg.base.nVars) (hbl : b.lb = lb) (c : ℝ) {k : ℝ} (hk : 0 ≤ k)
    {s s' : St (List ℝ) C (UniGauss ℝ)} {brk : Bool} (hs : start env e f b ρ = .ok s)
    (hst : step env e f ftol ρ N 1 s = .ok (s', brk)) :
    ∃ S' m d, 0 ≤ d ∧ s'.pm.mean[j]? = some m ∧ s'.pm.std[j]? = some d ∧
      (∀ u, step env e f ftol (withColumn ρ j u) N 1 s = .ok (S' u, brk)) ∧
      Wandering cfg j 1 lb m (d ^ 2) c k 1 s' S' (fun _ => m) (fun _ => d) := by
  have hb0 : OffGauss0 cfg.base.nVars lb b b := ⟨hbn, hbn, hbl, hbl⟩
  have hrel : ∀ u : ℕ × ℕ → ℝ, StRel (OffRel cfg.base.nVars j) cfg.base.nVars cfg.base.nVars
      (OffGauss0 cfg.base.nVars lb) s s := by
    intro u
    have h0 := start_sim (f := f) (f' := f) hv (off_gauss_sim (ρ := ρ) (j := j) hm hnv hz hdata hl lb u)
      (fun k r r' hr => hf k r r' hr.1 hr.2.1 hr.2.2) hb0
    have hs' : start env e f b (withColumn ρ j u) = .ok s := hs
    rw [hs, hs'] at h0
    obtain ⟨h0⟩ := h0
    exact h0
  obtain ⟨S', hS⟩ := off_gauss_step hv hm hnv hz hdata hl hf hN hst (fun _ => s) hrel
  have hr := hrel fun _ => 0
  obtain ⟨x, d, hx, hd, _, c1, c2, c3, c4⟩ := gauss_column_step (ρ := ρ) hm hz hl hj hN hr.pm.size hr.pm.floor
      hr.gen.cols hst rfl
  have hd0 : 0 ≤ d ∧ lb ≤ d := by
    rw [hd]; exact ⟨(Real.sqrt_nonneg _).trans (le_max_left _ _), le_max_right _ _⟩
  have hall : ∀ u, (S' u).pm.mean[j]? = some x ∧ (S' u).pm.std[j]? = some d ∧
      col (S' u).gen.rows j = (List.range cfg.base.sizeGen.toNat).map (fun i => x + d * u (1, i)) := by
    intro u
    obtain ⟨y, z, hy, hz', _, d1, d2, d3, _⟩ := gauss_column_step (ρ := ρ) hm hz hl hj hN hr.pm.size hr.pm.floor
      hr.gen.cols (hS u).1 rfl
    rw [← hx] at hy
    rw [← hd] at hz'
    subst hy hz'
    refine ⟨d1, d2, ?_⟩
    rw [d3]
    simp [withColumn]
  refine ⟨S', x, d, hd0.1, c1, c2, fun u => (hS u).1, ?_⟩
  refine ⟨step_aligned hv (start_aligned hv hs) hst, ?_, fun u => (hS u).2, fun u => (hall u).1,
    fun u => (hall u).2.1, fun u => (hall u).2.2, measurable_const, measurable_const, fun _ _ _ => rfl,
    fun _ _ _ => rfl, memLp_const _, memLp_const _, fun _ => hd0, by simp, by simp, ?_, by simp⟩
  · rw [c4, he]
    simp [sliceTo, takeIdx]
  · simp only [integral_const, probReal_univ, smul_eq_mul, one_mul]
    have : 0 ≤ k * max lb 0 ^ 2 := by positivity
    linarith

theorem wandering_loop (hv : env.Valid)
    (hm : MkOk id base (contInitSample id cfg) learn (fun b ω => b.sample cfg.base.sizeGen ω) e)
    (hnv : base.nVars = cfg.base.nVars) (hsz : base.sizeGen = cfg.base.sizeGen) (hz : base.noiseAttr = 0)
    (hdata : ∀ d, base.initData = some d → Rect base.nVars d.rows)
    (hl : LocLearn cfg.base.nVars w E learn) (hj : j < cfg.base.nVars)
    (hf : Ignores cfg.base.nVars j f) (ht1 : 1 ≤ e.truncLen) (ht2 : e.truncLen ≤ e.sizeGen)
    (he : e.eliteLen = 0) (hN : e.mkNoise ρ.noise = .ok N) {m v c k : ℝ}
    (hk : k = (e.truncLen.toNat : ℝ))
    (hc : c = ∑ i ∈ Finset.range e.truncLen.toNat, w e.truncLen.toNat i ^ 2)
    {s' : St (List ℝ) C (UniGauss ℝ)} (fuel : ℕ) :
    ∀ (t : ℕ) (s : St (List ℝ) C (UniGauss ℝ)) (S : (ℕ × ℕ → ℝ) → St (List ℝ) C (UniGauss ℝ))
      (M D : (ℕ × ℕ → ℝ) → ℝ), s.history.length = t + 2 →
      Wandering cfg j (t + 1) lb m v c k ((1 - 1 / k) ^ t) s S M D →
      loop env e f ftol ρ N fuel (t + 2) s = .ok s' →
    ∃ t' S' M' D', s'.history.length = t' + 2 ∧
      Wandering cfg j (t' + 1) lb m v c k ((1 - 1 / k) ^ t') s' S' M' D' ∧
      ∀ u, loop env e f ftol (withColumn ρ j u) N fuel (t + 2) (S u) = .ok (S' u) := by
  induction fuel with
  | zero =>
    intro t s S M D hl hd hloop
    obtain rfl := Except.ok.inj hloop
    exact ⟨t, S, M, D, hl, hd, fun u => rfl⟩
  | succ fuel ih =>
    intro t s S M D hlen hd hloop
    unfold loop at hloop
    rcases hst : step env e f ftol ρ N (t + 2) s with err | ⟨s1, brk⟩
    · rw [hst] at hloop; simp at hloop
    rw [hst] at hloop
    obtain ⟨S1, M1, D1, hS1, hd1⟩ := wandering_step hv hm hnv hsz hz hdata hl hj hf ht1 ht2 he hN hk hc hd hst
    have hl1 : s1.history.length = t + 1 + 2 := by
      obtain ⟨_, _, _, _, _, _, ho⟩ := step_ok hst
      rw [ho.history, List.length_append, hlen]; rfl
    rw [← pow_succ'] at hd1
    cases brk with
    | true =>
      obtain rfl := Except.ok.inj hloop
      refine ⟨t + 1, S1, M1, D1, hl1, hd1, fun u => ?_⟩
      unfold loop
      rw [hS1 u]
    | false =>
      obtain ⟨t', S', M', D', q1, q2, q4⟩ := ih (t + 1) s1 S1 M1 D1 hl1 hd1 hloop
      refine ⟨t', S', M', D', q1, q2, fun u => ?_⟩
      unfold loop
      rw [hS1 u]
      exact q4 u

end sim

end Verif
