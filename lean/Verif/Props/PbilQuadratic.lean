/-
C111: what `PBIL` is expected to cost on a sum of squares.
-/
import Verif.Props.Quadratic

set_option linter.unusedSectionVars false

namespace Verif

open PyCost Spec MeasureTheory ProbabilityTheory

namespace Spec

/-- The mean of the individuals. -/
noncomputable def meanRow (n : ℕ) (rows : List (List ℝ)) : List ℝ := (List.range n).map fun j => Spec.mean (col rows j)

/-- The point between the mean of the individuals and the sum of the first two minus the last. -/
noncomputable def movedMean (n : ℕ) (alpha : ℝ) (rows : List (List ℝ)) : List ℝ :=
  (List.range n).map fun j => (1 - alpha) * Spec.mean (col rows j) +
    alpha * ((col rows j).getD 0 0 + (col rows j).getD 1 0 - (col rows j).getD (rows.length - 1) 0)

end Spec

section pbil
variable {fl : ℝ → ℝ} {cfg : UMDAcCfg ℝ} {env : Env ℝ} {ftol : ℝ} {ρ : Rand (Draws ℝ)} {a o : ℕ → ℝ}
variable {e : Eda (List ℝ) (UniGauss ℝ) (Draws ℝ)} {b : UniGauss ℝ}

theorem squaresCost_range {n : ℕ} (x : ℕ → ℝ) : squaresCost n a o ((List.range n).map x) =
    ∑ j ∈ Finset.range n, a j * (x j - o j) ^ 2 := by
  have := cost_row (n := n) (a := a) (o := o) x fun _ => 0
  simpa using this

/-- **C111** `PBIL` without white noise on a sum of squares: given everything drawn before, the expected mean cost of the
last generation is the mean cost of the individuals selected from the generation before, changed by what moving their mean
costs and by what raising small deviations to `lower_factor` costs.  If no deviation is raised, the last generation is
expected to be better than the selected individuals exactly when the moved mean is better than the mean. -/
theorem C111_PBIL (hv : env.Valid) (h : PBIL fl Real.sqrt cfg = .ok (e, b)) (hn : 1 ≤ cfg.base.nVars)
    (hsize : 1 ≤ cfg.base.sizeGen) (hcpu : cfg.base.parallel = true → (env.cpu : ℤ) ≤ cfg.base.sizeGen)
    (hnz : cfg.base.noiseAttr = 0) {res : EdaResult (List ℝ) ℝ} {s : St (List ℝ) ℝ (UniGauss ℝ)}
    (hrun : minimize env e (fun _ => squaresCost cfg.base.nVars a o) ftol b ρ = .ok (res, s)) {T : ℕ}
    (hmax : cfg.base.maxIter = T + 2) (hlen : res.history.length = T + 2) :
    ∃ s1 s1', Visited env e (fun _ => squaresCost cfg.base.nVars a o) ftol b ρ (T + 1) s1 ∧
      truncation env e s1 = .ok s1' ∧
      ∃ m, ExpectedLast Spec.normalDraws (fun z => minimize env e (fun _ => squaresCost cfg.base.nVars a o) ftol b
        (replaceDraws ρ (T + 1) z)) s m ∧
        m = Spec.mean (s1'.gen.rows.map (squaresCost cfg.base.nVars a o)) +
          (squaresCost cfg.base.nVars a o (movedMean cfg.base.nVars cfg.base.alpha s1'.gen.rows) -
            squaresCost cfg.base.nVars a o (meanRow cfg.base.nVars s1'.gen.rows)) +
          ∑ j ∈ Finset.range cfg.base.nVars, a j *
            (max (Real.sqrt (Spec.variance (col s1'.gen.rows j))) cfg.lowerFactor ^ 2 -
              Spec.variance (col s1'.gen.rows j)) ∧
        ((∀ j < cfg.base.nVars, cfg.lowerFactor ≤ Real.sqrt (Spec.variance (col s1'.gen.rows j))) →
          (m < Spec.mean (s1'.gen.rows.map (squaresCost cfg.base.nVars a o)) ↔
            squaresCost cfg.base.nVars a o (movedMean cfg.base.nVars cfg.base.alpha s1'.gen.rows) <
              squaresCost cfg.base.nVars a o (meanRow cfg.base.nVars s1'.gen.rows))) := by
  obtain ⟨hmk, _, hb⟩ := mkCont_ok h
  have hm := mkEda_ok hmk
  have hfl := floors_learnAdapt real_isSqrt (show 0 < cfg.base.nVars by omega) cfg.lowerFactor cfg.base.alpha
  obtain ⟨s1, s1', noise, noisy, pm', hvis, hno, htr, hnn, hu, hsm, hlog, hother⟩ :=
    last_pass hv hrun (by rw [hm.maxIter]; exact hmax) hlen (fun _ _ => field_isNum _)
  have hsame : noisy = s1'.gen := mkNoise_clean hm hnz hno hnn
  have hpm : s1.pm.n = cfg.base.nVars ∧ s1.pm.lb = cfg.lowerFactor := by
    refine visited_inv (fun s => s.pm.n = cfg.base.nVars ∧ s.pm.lb = cfg.lowerFactor) ?_ ?_ hvis
    · intro s0 h0
      obtain ⟨_, _, _, _, _, hs⟩ := start_ok h0
      rw [hs.pm, hb]; exact ⟨rfl, rfl⟩
    · intro noise t s s' b' hi _ hst
      obtain ⟨s1, noisy, _, _, _, _, hs⟩ := step_ok hst
      have hu := hs.update
      rw [hm.updatePm] at hu
      have hg := (hfl _ _ s1.elite (ρ.learn t) _ hi.1 hi.2 hu).1
      exact ⟨hg.n, hg.lb⟩
  rw [hm.updatePm, hsame] at hu
  have hgood := (hfl _ _ s1'.elite (ρ.learn (T + 1)) _ hpm.1 hpm.2 hu).1
  have hdev := deviates_learnAdapt (by omega) cfg.lowerFactor cfg.base.alpha _ _ s1'.elite (ρ.learn (T + 1)) _ hpm.1
    hpm.2 hu
  have hu : s1.pm.learnAdapt Real.sqrt cfg.base.alpha s1'.gen = .ok pm' := hu
  have h2 : 2 ≤ s1'.gen.rows.length := by
    by_contra hlt
    rw [C25_too_few_rows (by omega) (by omega)] at hu
    cases hu
  have hne : s1'.gen.rows ≠ [] := by intro h0; rw [h0] at h2; simp at h2
  have hc : s1.pm.n ≤ s1'.gen.cols := by
    by_contra hlt
    unfold UniGauss.learnAdapt at hu
    rw [if_neg (by omega), if_pos (by omega)] at hu
    cases hu
  have hmean : pm'.mean = movedMean cfg.base.nVars cfg.base.alpha s1'.gen.rows := by
    obtain ⟨b'', h1, _, _, h4, _, h6⟩ := C25_learn_partial (alpha := cfg.base.alpha) real_isSqrt
      (fun h => absurd h (by omega)) hc h2
    obtain rfl := Except.ok.inj (h1.symm.trans hu)
    apply List.ext_getElem?
    intro j
    by_cases hj : j < cfg.base.nVars
    · rw [(h6 j (by omega)).1, movedMean, List.getElem?_map, List.getElem?_range hj, Option.map_some]
    · rw [List.getElem?_eq_none (by omega), List.getElem?_eq_none (by simp [movedMean]; omega)]
  have hE := normal_squares (n := cfg.base.nVars) (a := a) (o := o) (size := cfg.base.sizeGen.toNat) (by omega)
    (fun j => pm'.mean.getD j 0) (fun k j => if k = j then pm'.std.getD j 0 else 0)
    (draw := fun z => pm'.sample cfg.base.sizeGen z) (fun z => by
      refine ⟨_, UniGauss.sample_eq hgood (by omega) z, ?_⟩
      simp only
      refine List.map_congr_left fun i _ => List.map_congr_left fun j hj => ?_
      have hj : j ∈ Finset.range cfg.base.nVars := Finset.mem_range.2 (List.mem_range.1 hj)
      simp only [mul_ite, mul_zero]
      rw [Finset.sum_ite_eq' _ j, if_pos hj]
      ring)
  have hval : ∑ j ∈ Finset.range cfg.base.nVars, a j * ((pm'.mean.getD j 0 - o j) ^ 2 +
      ∑ k ∈ Finset.range cfg.base.nVars, (if k = j then pm'.std.getD j 0 else 0) ^ 2) =
      Spec.mean (s1'.gen.rows.map (squaresCost cfg.base.nVars a o)) +
          (squaresCost cfg.base.nVars a o (movedMean cfg.base.nVars cfg.base.alpha s1'.gen.rows) -
            squaresCost cfg.base.nVars a o (meanRow cfg.base.nVars s1'.gen.rows)) +
          ∑ j ∈ Finset.range cfg.base.nVars, a j *
            (max (Real.sqrt (Spec.variance (col s1'.gen.rows j))) cfg.lowerFactor ^ 2 -
              Spec.variance (col s1'.gen.rows j)) := by
    rw [mean_squares hne, meanRow, squaresCost_range, hmean]
    unfold squaresCost
    rw [← Finset.sum_sub_distrib, ← Finset.sum_add_distrib, ← Finset.sum_add_distrib]
    refine Finset.sum_congr rfl fun j hj => ?_
    have e : ∑ k ∈ Finset.range cfg.base.nVars, (if k = j then pm'.std.getD j 0 else 0) ^ 2 = pm'.std.getD j 0 ^ 2 := by
      simp only [ite_pow, ne_eq, OfNat.ofNat_ne_zero, not_false_eq_true, zero_pow]
      rw [Finset.sum_ite_eq' _ j, if_pos hj]
    rw [e, hdev j (Finset.mem_range.1 hj)]
    ring
  rw [hval] at hE
  obtain ⟨X, hX, hi, hE⟩ := hE
  refine ⟨s1, s1', hvis, htr, _, ⟨X, ?_, hi, hE⟩, rfl, fun hlow => ?_⟩
  · filter_upwards [hX] with z hz
    obtain ⟨out, ho, hol, hx⟩ := hz
    obtain ⟨res', s', r1, r2, r3, r4⟩ := hother z out (by rw [hm.sample]; exact ho)
      (by intro h0; rw [h0] at hol; simp at hol; omega)
      (by intro hp; rw [hm.parallel] at hp; have := hcpu hp; omega)
    refine ⟨res', s', r1, by rw [r3, hlog]; simp, by rw [r3, hlog, List.dropLast_concat, List.dropLast_concat],
      by rw [r3, r2]; simp, ?_⟩
    rw [hx, r4, callRows_const]
  · have h0 : ∑ j ∈ Finset.range cfg.base.nVars, a j *
        (max (Real.sqrt (Spec.variance (col s1'.gen.rows j))) cfg.lowerFactor ^ 2 -
          Spec.variance (col s1'.gen.rows j)) = 0 := by
      refine Finset.sum_eq_zero fun j hj => ?_
      rw [max_eq_left (hlow j (Finset.mem_range.1 hj)), Real.sq_sqrt (Verif.variance_nonneg _), sub_self, mul_zero]
    rw [h0, add_zero]
    constructor <;> intro h1 <;> linarith

end pbil

/-- Three individuals are given; the first one is kept as the elite, so four are there to select from, and all four are
selected.  The learning rate is 1/2. -/
noncomputable def Ex.tug : UMDAcCfg ℝ :=
  { base := { sizeGen := 4, maxIter := 2, deadIter := 0, nVars := 1, alpha := 1/2, eliteFactor := 1/4,
              parallel := false, wNoise := none,
              initData := some { dt := .float, cols := 1, rows := [[0], [1], [-2]] } }
    lower := .scalar 0, upper := .scalar 5, vector := none, lowerFactor := 0 }

theorem Ex.tug_usable : InitUsable Ex.tug := by
  show ∀ bd, bd = Bound.scalar (0 : ℝ) ∨ bd = Bound.scalar 5 → _
  rintro bd (rfl | rfl) <;> trivial

theorem Ex.tug_valid : ContValid realEnv.cpu { Ex.tug.base with alpha := 1 } Ex.tug 3
    (selLen id Ex.tug.base.sizeGen (1 : ℝ)) where
  dead := by norm_num [Ex.tug]
  size := by norm_num [Ex.tug]
  pos := by norm_num
  trunc := by norm_num [Ex.tug, selLen, pyInt, Num.truncZ]
  cpu := by intro h; simp [Ex.tug] at h
  noise := .inl rfl
  init := fun _ => Ex.tug_usable
  build := (initUsable_sample (fl := id) Ex.tug_usable (by norm_num [Ex.tug])).1
  data := by
    intro d hd
    simp only [Ex.tug, Option.some.injEq] at hd
    subst hd
    refine ⟨⟨rfl, ?_, by simp, by simp⟩, by simp⟩
    intro r hr
    simp only [List.mem_cons, List.not_mem_nil, or_false] at hr
    rcases hr with rfl | rfl | rfl <;> rfl

/-- C111, `PBIL` on `x²`: 0, 0, 1 and -2 are selected, at the mean cost 5/4.  Their mean -1/4 is moved to 7/8, away from the
minimum, and the next generation is expected to cost 125/64. -/
example : ∃ e b, PBIL id Real.sqrt Ex.tug = .ok (e, b) ∧
    ∀ ρ : Rand (Draws ℝ), ∃ res s s1 s1',
      minimize realEnv e (fun _ => squaresCost 1 (fun _ => 1) 0) 0 b ρ = .ok (res, s) ∧
      truncation realEnv e s1 = .ok s1' ∧ s1'.gen.rows = [[0], [0], [1], [-2]] ∧
      Spec.mean (s1'.gen.rows.map (squaresCost 1 (fun _ => 1) 0)) = 5 / 4 ∧
      ExpectedLast Spec.normalDraws (fun z => minimize realEnv e
        (fun _ => squaresCost 1 (fun _ => 1) 0) 0 b (replaceDraws ρ 1 z)) s (125 / 64) := by
  have hsel : selLen id (4 : ℤ) (1 : ℝ) = 4 := by norm_num [selLen, pyInt, Num.truncZ]
  have hrun : ∀ ρ : Rand (Draws ℝ), ∃ e b, PBIL id Real.sqrt Ex.tug = .ok (e, b) ∧ ∃ res s,
      minimize realEnv e (fun _ => squaresCost 1 (fun _ => 1) 0) 0 b ρ = .ok (res, s) :=
    fun ρ => C53_PBIL_never_raises realEnv_valid real_isSqrt (show 2 ≤ 3 by omega)
      (show 2 ≤ selLen id (4 : ℤ) (1 : ℝ) by rw [hsel]; omega) Ex.tug_valid (fun _ _ => field_isNum _)
  obtain ⟨e, b, h, _⟩ := hrun ⟨fun _ _ => 0, fun _ _ => 0, fun _ _ _ => 0, fun _ _ _ => 0⟩
  refine ⟨e, b, h, fun ρ => ?_⟩
  obtain ⟨e', b', h', res, s, hr⟩ := hrun ρ
  rw [h] at h'
  obtain ⟨rfl, rfl⟩ := Prod.mk.inj (Except.ok.inj h')
  have hm := mkEda_ok (mkCont_ok h).1
  have hlen : res.history.length = 2 := by
    have := (C06_dead_iter hr).2.2 (by rw [hm.deadIter]; rfl)
    rw [hm.maxIter] at this
    have h3 : (res.history.length : ℤ) = 2 := by simpa [Ex.tug] using this
    exact_mod_cast h3
  obtain ⟨s1, s1', hvis, htr, m, hE, hval, _⟩ := C111_PBIL (a := fun _ => 1) (o := 0) realEnv_valid h
    (by norm_num [Ex.tug]) (by norm_num [Ex.tug]) (by intro hp; simp [Ex.tug] at hp) rfl hr (T := 0) (by rfl) hlen
  have hal := visited_aligned realEnv_valid hvis
  obtain ⟨i1, i2⟩ := costs_of_rows realEnv_valid hvis
  obtain ⟨Q, q1, q2, q3, _⟩ := truncation_ok realEnv_valid hal htr
  have hrows : s1.gen.rows = [[0], [1], [-2]] ∧ s1.elite.rows = [[0]] := by
    generalize ht : 0 + 1 = t at hvis
    cases hvis with
    | next h0 _ _ =>
      have := visited_log_len h0
      cases h0 <;> omega
    | first h0 =>
      obtain ⟨_, _, _, _, _, hs⟩ := start_ok h0
      have hi := hs.init
      rw [(hm.initSome _ rfl).2] at hi
      have hi := (congrArg Gen.rows (Except.ok.inj hi)).symm
      have h0 := hs.row0
      rw [hi] at h0
      refine ⟨hi, ?_⟩
      rw [hs.elite]
      simpa using h0.symm
  have hpool : poolOf s1 = [([0], 0), ([1], 1), ([-2], 4), ([0], 0)] := by
    unfold poolOf
    rw [i1, i2, hrows.1, hrows.2]
    norm_num [squaresCost, Ex.tug]
  rw [hpool] at q1
  have hQ : Q = [([0], 0), ([0], 0), ([1], 1), ([-2], 4)] := by
    have hperm : Q.Perm [([0], 0), ([0], 0), ([1], 1), ([-2], 4)] :=
      q1.trans (List.Perm.cons _ (List.perm_append_comm (l₁ := [([1], 1), ([-2], 4)]) (l₂ := [([0], 0)])))
    refine hperm.eq_of_pairwise (le := fun p q : List ℝ × ℝ => p.2 ≤ q.2) ?_ (q2.imp fun h => by simpa using h.1) ?_
    · intro x y hx hy hxy hyx
      have hx := hperm.subset hx
      simp only [List.mem_cons, List.not_mem_nil, or_false] at hx hy
      rcases hx with rfl | rfl | rfl | rfl <;> rcases hy with rfl | rfl | rfl | rfl <;>
        first | rfl | (exfalso; revert hxy; norm_num; done) | (exfalso; revert hyx; norm_num)
    · norm_num
  have hT : e.truncLen = 4 := by rw [hm.truncLen]; exact hsel
  rw [hQ, hT] at q3
  have q3 : s1'.gen.rows = [[0], [0], [1], [-2]] := by rw [q3]; norm_num [sliceLen]
  have hmean : Spec.mean (s1'.gen.rows.map (squaresCost 1 (fun _ => 1) 0)) = 5 / 4 := by
    rw [q3]
    norm_num [squaresCost, Spec.mean]
  refine ⟨res, s, s1, s1', hr, htr, q3, hmean, ?_⟩
  have hv : m = 125 / 64 := by
    have hval : m = Spec.mean (s1'.gen.rows.map (squaresCost 1 (fun _ => 1) 0)) +
        (squaresCost 1 (fun _ => 1) 0 (movedMean 1 (1 / 2) s1'.gen.rows) -
          squaresCost 1 (fun _ => 1) 0 (meanRow 1 s1'.gen.rows)) +
        ∑ j ∈ Finset.range 1, 1 * (max (Real.sqrt (Spec.variance (col s1'.gen.rows j))) 0 ^ 2 -
          Spec.variance (col s1'.gen.rows j)) := hval
    rw [hmean, Finset.sum_range_one, max_eq_left (Real.sqrt_nonneg _), Real.sq_sqrt (Verif.variance_nonneg _), q3] at hval
    rw [hval]
    norm_num [squaresCost, movedMean, meanRow, Spec.mean, col]
  rw [← hv]
  exact hE

end Verif
