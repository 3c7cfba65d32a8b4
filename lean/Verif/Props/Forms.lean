/-
C112: what `UMDAc` is expected to cost on a quadratic function whose variables interact.
-/
import Verif.Props.Quadratic

set_option linter.unusedSectionVars false

namespace Verif

open PyCost Spec MeasureTheory ProbabilityTheory

namespace Spec

/-- A weighted sum of `R` squares of affine functions: a quadratic function. -/
noncomputable def formsCost (R n : ℕ) (a o : ℕ → ℝ) (w : ℕ → ℕ → ℝ) (x : List ℝ) : ℝ :=
  ∑ r ∈ Finset.range R, a r * ((∑ j ∈ Finset.range n, w r j * x.getD j 0) - o r) ^ 2

end Spec

section mean
variable {R n : ℕ} {a o : ℕ → ℝ} {w : ℕ → ℕ → ℝ}

/-- The mean cost of some individuals: the cost of their mean and their variances along the affine functions. -/
theorem mean_forms {rows : List (List ℝ)} (hne : rows ≠ []) : Spec.mean (rows.map (formsCost R n a o w)) =
    ∑ r ∈ Finset.range R, a r * ((Spec.mean (along n (w r) rows) - o r) ^ 2 + Spec.variance (along n (w r) rows)) := by
  have h := mean_squares (n := R) (a := a) (o := o)
    (rows := rows.map fun x => (List.range R).map fun r => ∑ j ∈ Finset.range n, w r j * x.getD j 0) (by simpa using hne)
  have hget : ∀ (x : List ℝ), ∀ r < R,
      ((List.range R).map fun r => ∑ j ∈ Finset.range n, w r j * x.getD j 0).getD r 0 =
        ∑ j ∈ Finset.range n, w r j * x.getD j 0 := by
    intro x r hr
    rw [List.getD_eq_getElem?_getD, List.getElem?_map, List.getElem?_range hr, Option.map_some, Option.getD_some]
  have hcost : (squaresCost R a o ∘ fun x : List ℝ => (List.range R).map fun r =>
      ∑ j ∈ Finset.range n, w r j * x.getD j 0) = formsCost R n a o w := by
    funext x
    rw [Function.comp_apply]
    unfold squaresCost formsCost
    exact Finset.sum_congr rfl fun r hr => by rw [hget x r (Finset.mem_range.1 hr)]
  rw [List.map_map, hcost] at h
  rw [h]
  refine Finset.sum_congr rfl fun r hr => ?_
  have : col (rows.map fun x => (List.range R).map fun r => ∑ j ∈ Finset.range n, w r j * x.getD j 0) r =
      along n (w r) rows := by
    unfold col along
    rw [List.map_map]
    exact List.map_congr_left fun x _ => hget x r (Finset.mem_range.1 hr)
  rw [this]

theorem mean_along {rows : List (List ℝ)} (hne : rows ≠ []) (v : ℕ → ℝ) :
    Spec.mean (along n v rows) = ∑ j ∈ Finset.range n, v j * Spec.mean (col rows j) := by
  have h1 := mean_linear (n := n) (a := 0) (w := v) (rows := rows) hne
  rw [zero_add, Fin.sum_univ_eq_sum_range (fun j => v j * Spec.mean (col rows j))] at h1
  rw [← h1]
  unfold along
  congr 1
  refine List.map_congr_left fun x _ => ?_
  unfold linearCost
  rw [zero_add, Fin.sum_univ_eq_sum_range (fun j => v j * x.getD j 0)]

/-- The expected mean cost of what a univariate normal model samples. -/
theorem gauss_forms {b : UniGauss ℝ} {lb : ℝ} (hb : b.Good n lb) {size : ℤ} (hs : 1 ≤ size) :
    ExpectedCost Spec.normalDraws (fun z => b.sample size z) (formsCost R n a o w) size.toNat
      (∑ r ∈ Finset.range R, a r * (((∑ j ∈ Finset.range n, w r j * b.mean.getD j 0) - o r) ^ 2 +
        ∑ j ∈ Finset.range n, (w r j * b.std.getD j 0) ^ 2)) := by
  have hsec := fun i r => normal_second (n := n) ((∑ j ∈ Finset.range n, w r j * b.mean.getD j 0) - o r)
    (fun j => w r j * b.std.getD j 0) i
  have hint : ∀ i, Integrable (fun z : Draws ℝ => ∑ r ∈ Finset.range R, a r *
      ((∑ j ∈ Finset.range n, w r j * b.mean.getD j 0) - o r +
        ∑ j ∈ Finset.range n, z i j * (w r j * b.std.getD j 0)) ^ 2) Spec.normalDraws := fun i =>
    integrable_finsetSum _ fun r _ => (hsec i r).1.const_mul _
  refine ⟨fun z => (∑ i ∈ Finset.range size.toNat, ∑ r ∈ Finset.range R, a r *
      ((∑ j ∈ Finset.range n, w r j * b.mean.getD j 0) - o r +
        ∑ j ∈ Finset.range n, z i j * (w r j * b.std.getD j 0)) ^ 2) / size.toNat,
    Filter.Eventually.of_forall fun z => ?_, ?_, ?_⟩
  · refine ⟨_, UniGauss.sample_eq hb (by omega) z, by simp, ?_⟩
    have hcost : ((List.range size.toNat).map (fun i => (List.range n).map (fun j =>
        b.mean.getD j 0 + b.std.getD j 0 * z i j))).map (formsCost R n a o w) =
        (List.range size.toNat).map fun i => ∑ r ∈ Finset.range R, a r *
          ((∑ j ∈ Finset.range n, w r j * b.mean.getD j 0) - o r +
            ∑ j ∈ Finset.range n, z i j * (w r j * b.std.getD j 0)) ^ 2 := by
      rw [List.map_map]
      refine List.map_congr_left fun i _ => ?_
      rw [Function.comp_apply]
      unfold formsCost
      refine Finset.sum_congr rfl fun r _ => ?_
      have : ∑ j ∈ Finset.range n, w r j * ((List.range n).map (fun j =>
          b.mean.getD j 0 + b.std.getD j 0 * z i j)).getD j 0 =
          ∑ j ∈ Finset.range n, w r j * b.mean.getD j 0 + ∑ j ∈ Finset.range n, z i j * (w r j * b.std.getD j 0) := by
        rw [← Finset.sum_add_distrib]
        refine Finset.sum_congr rfl fun j hj => ?_
        have hget : ((List.range n).map (fun j => b.mean.getD j 0 + b.std.getD j 0 * z i j)).getD j 0 =
            b.mean.getD j 0 + b.std.getD j 0 * z i j := by
          rw [List.getD_eq_getElem?_getD, List.getElem?_map, List.getElem?_range (Finset.mem_range.1 hj),
            Option.map_some, Option.getD_some]
        rw [hget]
        ring
      rw [this]
      ring
    rw [hcost]
    unfold Spec.mean
    rw [List.length_map, List.length_range, sum_map_listRange]
  · exact (integrable_finsetSum _ fun i _ => hint i).div_const _
  · rw [integral_div, integral_finsetSum _ fun i _ => hint i]
    have : ∀ i, ∫ z : Draws ℝ, ∑ r ∈ Finset.range R, a r *
        ((∑ j ∈ Finset.range n, w r j * b.mean.getD j 0) - o r +
          ∑ j ∈ Finset.range n, z i j * (w r j * b.std.getD j 0)) ^ 2 ∂Spec.normalDraws =
        ∑ r ∈ Finset.range R, a r * (((∑ j ∈ Finset.range n, w r j * b.mean.getD j 0) - o r) ^ 2 +
          ∑ j ∈ Finset.range n, (w r j * b.std.getD j 0) ^ 2) := by
      intro i
      rw [integral_finsetSum _ fun r _ => (hsec i r).1.const_mul _]
      exact Finset.sum_congr rfl fun r _ => by rw [integral_const_mul, (hsec i r).2]
    simp only [this, Finset.sum_const, Finset.card_range, nsmul_eq_mul]
    have : (size.toNat : ℝ) ≠ 0 := by exact_mod_cast (by omega : size.toNat ≠ 0)
    field_simp

end mean

section umdac
variable {fl : ℝ → ℝ} {cfg : UMDAcCfg ℝ} {env : Env ℝ} {ftol : ℝ} {ρ : Rand (Draws ℝ)} {R : ℕ} {a o : ℕ → ℝ}
variable {w : ℕ → ℕ → ℝ} {e : Eda (List ℝ) (UniGauss ℝ) (Draws ℝ)} {b : UniGauss ℝ}

/-- **C112** `UMDAc` without white noise on a quadratic function: given everything drawn before, the expected mean cost of
the last generation is the mean cost of the individuals selected from the generation before, where their variance along
each of the affine functions is replaced by what it would be if the variables were independent. -/
theorem C112_UMDAc (hv : env.Valid) (h : UMDAc fl Real.sqrt cfg = .ok (e, b)) (hn : 1 ≤ cfg.base.nVars)
    (hsize : 1 ≤ cfg.base.sizeGen) (hcpu : cfg.base.parallel = true → (env.cpu : ℤ) ≤ cfg.base.sizeGen)
    (hnz : cfg.base.noiseAttr = 0) {res : EdaResult (List ℝ) ℝ} {s : St (List ℝ) ℝ (UniGauss ℝ)}
    (hrun : minimize env e (fun _ => formsCost R cfg.base.nVars a o w) ftol b ρ = .ok (res, s)) {T : ℕ}
    (hmax : cfg.base.maxIter = T + 2) (hlen : res.history.length = T + 2) :
    ∃ s1 s1', Visited env e (fun _ => formsCost R cfg.base.nVars a o w) ftol b ρ (T + 1) s1 ∧
      truncation env e s1 = .ok s1' ∧
      ExpectedLast Spec.normalDraws (fun z => minimize env e (fun _ => formsCost R cfg.base.nVars a o w) ftol b
        (replaceDraws ρ (T + 1) z)) s
        (Spec.mean (s1'.gen.rows.map (formsCost R cfg.base.nVars a o w)) + ∑ r ∈ Finset.range R, a r *
          (independentSpread cfg.base.nVars cfg.lowerFactor (w r) s1'.gen.rows -
            Spec.variance (along cfg.base.nVars (w r) s1'.gen.rows))) := by
  obtain ⟨hmk, _, hb⟩ := mkCont_ok h
  have hm := mkEda_ok hmk
  have hfl := floors_learn real_isSqrt (show 0 < cfg.base.nVars by omega) cfg.lowerFactor
  obtain ⟨s1, s1', noise, noisy, pm', hvis, hno, htr, hnn, hu, hsm, hlog, hother⟩ :=
    last_pass hv hrun (by rw [hm.maxIter]; exact hmax) hlen (fun _ _ => field_isNum _)
  have hsame : noisy = s1'.gen := mkNoise_clean hm hnz hno hnn
  have hpm : s1.pm.n = cfg.base.nVars ∧ s1.pm.lb = cfg.lowerFactor := by
    refine visited_inv (fun s => s.pm.n = cfg.base.nVars ∧ s.pm.lb = cfg.lowerFactor) ?_ ?_ hvis
    · intro s0 h0
      obtain ⟨_, _, _, _, _, hs⟩ := start_ok h0
      rw [hs.pm, hb]; exact ⟨rfl, rfl⟩
    · intro noise t s s' b' hi _ hst
      obtain ⟨s1, noisy, _, _, _, _, hs⟩ := step_ok hst
      have hu := hs.update
      rw [hm.updatePm] at hu
      have hg := (hfl _ _ s1.elite (ρ.learn t) _ hi.1 hi.2 hu).1
      exact ⟨hg.n, hg.lb⟩
  rw [hm.updatePm, hsame] at hu
  have hgood := (hfl _ _ s1'.elite (ρ.learn (T + 1)) _ hpm.1 hpm.2 hu).1
  have hdev := deviates_learn (by omega) cfg.lowerFactor _ _ s1'.elite (ρ.learn (T + 1)) _ hpm.1 hpm.2 hu
  have hu : s1.pm.learn Real.sqrt s1'.gen = .ok pm' := hu
  have hc : s1.pm.n ≤ s1'.gen.cols := by
    by_contra hlt
    unfold UniGauss.learn at hu
    rw [if_neg (by omega), if_pos (by omega)] at hu
    cases hu
  have hne : s1'.gen.rows ≠ [] := by
    intro h0
    unfold UniGauss.learn at hu
    rw [if_neg (by omega), if_neg (by omega), if_pos (by simp [h0])] at hu
    cases hu
  have hmean : ∀ j < cfg.base.nVars, pm'.mean.getD j 0 = Spec.mean (col s1'.gen.rows j) := by
    intro j hj
    obtain ⟨b'', h1, _, _, _, _, h6⟩ := C24_learn real_isSqrt (fun h => absurd h (by omega)) hc hne
    obtain rfl := Except.ok.inj (h1.symm.trans hu)
    rw [List.getD_eq_getElem?_getD, (h6 j (by omega)).1]
    rfl
  have hE := gauss_forms (R := R) (a := a) (o := o) (w := w) hgood hsize
  have hval : ∑ r ∈ Finset.range R, a r * (((∑ j ∈ Finset.range cfg.base.nVars, w r j * pm'.mean.getD j 0) - o r) ^ 2 +
        ∑ j ∈ Finset.range cfg.base.nVars, (w r j * pm'.std.getD j 0) ^ 2) =
      Spec.mean (s1'.gen.rows.map (formsCost R cfg.base.nVars a o w)) + ∑ r ∈ Finset.range R, a r *
          (independentSpread cfg.base.nVars cfg.lowerFactor (w r) s1'.gen.rows -
            Spec.variance (along cfg.base.nVars (w r) s1'.gen.rows)) := by
    rw [mean_forms hne, ← Finset.sum_add_distrib]
    refine Finset.sum_congr rfl fun r _ => ?_
    have e1 : ∑ j ∈ Finset.range cfg.base.nVars, w r j * pm'.mean.getD j 0 =
        Spec.mean (along cfg.base.nVars (w r) s1'.gen.rows) := by
      rw [mean_along hne]
      exact Finset.sum_congr rfl fun j hj => by rw [hmean j (Finset.mem_range.1 hj)]
    have e2 : ∑ j ∈ Finset.range cfg.base.nVars, (w r j * pm'.std.getD j 0) ^ 2 =
        independentSpread cfg.base.nVars cfg.lowerFactor (w r) s1'.gen.rows := by
      unfold independentSpread
      exact Finset.sum_congr rfl fun j hj => by rw [hdev j (Finset.mem_range.1 hj), mul_pow]
    rw [e1, e2]
    ring
  rw [hval] at hE
  obtain ⟨X, hX, hi, hE⟩ := hE
  refine ⟨s1, s1', hvis, htr, X, ?_, hi, hE⟩
  filter_upwards [hX] with z hz
  obtain ⟨out, ho, hol, hx⟩ := hz
  obtain ⟨res', s', r1, r2, r3, r4⟩ := hother z out (by rw [hm.sample]; exact ho)
    (by intro h0; rw [h0] at hol; simp at hol; omega)
    (by intro hp; rw [hm.parallel] at hp; have := hcpu hp; omega)
  refine ⟨res', s', r1, by rw [r3, hlog]; simp, by rw [r3, hlog, List.dropLast_concat, List.dropLast_concat],
    by rw [r3, r2]; simp, ?_⟩
  rw [hx, r4, callRows_const]

end umdac

/-- The individuals that `UMDAc` selects from the first generation of `Ex.diagonal`. -/
theorem Ex.diagonal_selected {e : Eda (List ℝ) (UniGauss ℝ) (Draws ℝ)} {b : UniGauss ℝ}
    (h : UMDAc id Real.sqrt Ex.diagonal = .ok (e, b)) {f : ℕ → List ℝ → ℝ} {ρ : Rand (Draws ℝ)}
    {s1 s1' : St (List ℝ) ℝ (UniGauss ℝ)} {t : ℕ} (ht : t = 1) (hvis : Visited realEnv e f 0 b ρ t s1)
    (htr : truncation realEnv e s1 = .ok s1') : s1'.gen.rows.Perm [[0, 0], [2, 2], [2, 2], [0, 0]] := by
  have hm := mkEda_ok (mkCont_ok h).1
  have ha := visited_aligned realEnv_valid hvis
  obtain ⟨P, p1, _, p3, _⟩ := truncation_ok realEnv_valid ha htr
  have hrows : s1.gen.rows = [[0, 0], [2, 2], [2, 2]] ∧ s1.elite.rows = [[0, 0]] := by
    cases hvis with
    | next h0 _ _ =>
      have := visited_log_len h0
      cases h0 <;> omega
    | first h0 =>
      obtain ⟨_, _, _, _, _, hs⟩ := start_ok h0
      have hi := hs.init
      rw [(hm.initSome _ rfl).2] at hi
      have hi := (congrArg Gen.rows (Except.ok.inj hi)).symm
      have h0 := hs.row0
      rw [hi] at h0
      refine ⟨hi, ?_⟩
      rw [hs.elite]
      simpa using h0.symm
  have hpl := p1.length_eq
  rw [poolOf_length ha, hrows.1, hrows.2] at hpl
  have hT : e.truncLen = 4 := by rw [hm.truncLen]; norm_num [Ex.diagonal, selLen, pyInt, Num.truncZ]
  rw [p3, List.take_of_length_le (by unfold sliceLen; rw [hT, hpl]; norm_num)]
  have := p1.map Prod.fst
  rwa [poolOf_eq ha, List.map_append, List.map_fst_zip (by rw [ha.1]), List.map_fst_zip (by rw [ha.2]), hrows.1,
    hrows.2] at this

/-- C112, `UMDAc` in the valley `(x - y)²`: all selected individuals are minima, and the next generation is expected to
cost 2. -/
example : ∃ e b, UMDAc id Real.sqrt Ex.diagonal = .ok (e, b) ∧
    ∀ ρ : Rand (Draws ℝ), ∃ res s s1 s1',
      minimize realEnv e (fun _ => formsCost 1 2 1 0 fun _ j => if j = 0 then 1 else -1) 0 b ρ = .ok (res, s) ∧
      truncation realEnv e s1 = .ok s1' ∧ s1'.gen.rows.Perm [[0, 0], [2, 2], [2, 2], [0, 0]] ∧
      Spec.mean (s1'.gen.rows.map (formsCost 1 2 1 0 fun _ j => if j = 0 then 1 else -1)) = 0 ∧
      ExpectedLast Spec.normalDraws (fun z => minimize realEnv e
        (fun _ => formsCost 1 2 1 0 fun _ j => if j = 0 then 1 else -1) 0 b (replaceDraws ρ 1 z)) s 2 := by
  have hrun : ∀ ρ : Rand (Draws ℝ), ∃ e b, UMDAc id Real.sqrt Ex.diagonal = .ok (e, b) ∧ ∃ res s,
      minimize realEnv e (fun _ => formsCost 1 2 1 0 fun _ j => if j = 0 then 1 else -1) 0 b ρ = .ok (res, s) :=
    fun ρ => C53_UMDAc_never_raises realEnv_valid real_isSqrt Ex.diagonal_valid (fun _ _ => field_isNum _)
  obtain ⟨e, b, h, _⟩ := hrun ⟨fun _ _ => 0, fun _ _ => 0, fun _ _ _ => 0, fun _ _ _ => 0⟩
  refine ⟨e, b, h, fun ρ => ?_⟩
  obtain ⟨e', b', h', res, s, hr⟩ := hrun ρ
  rw [h] at h'
  obtain ⟨rfl, rfl⟩ := Prod.mk.inj (Except.ok.inj h')
  have hm := mkEda_ok (mkCont_ok h).1
  have hlen : res.history.length = 2 := by
    have := (C06_dead_iter hr).2.2 (by rw [hm.deadIter]; rfl)
    rw [hm.maxIter] at this
    have h3 : (res.history.length : ℤ) = 2 := by simpa [Ex.diagonal] using this
    exact_mod_cast h3
  obtain ⟨s1, s1', hvis, htr, hE⟩ := C112_UMDAc (R := 1) (a := 1) (o := 0) (w := fun _ j => if j = 0 then 1 else -1)
    realEnv_valid h (by norm_num [Ex.diagonal]) (by norm_num [Ex.diagonal]) (by intro hp; simp [Ex.diagonal] at hp) rfl hr
    (T := 0) (by rfl) hlen
  have hp := Ex.diagonal_selected h rfl hvis htr
  have hmean : Spec.mean (s1'.gen.rows.map (formsCost 1 2 1 0 fun _ j => if j = 0 then 1 else -1)) = 0 := by
    have hpc := hp.map (formsCost 1 2 1 0 fun _ j => if j = 0 then 1 else -1)
    unfold Spec.mean
    rw [hpc.sum_eq, hpc.length_eq]
    norm_num [formsCost, Finset.sum_range_succ]
  refine ⟨res, s, s1, s1', hr, htr, hp, hmean, ?_⟩
  have hvj : ∀ j < 2, Spec.variance (col s1'.gen.rows j) = 1 := by
    intro j hj
    have hpj : (col s1'.gen.rows j).Perm (col [[0, 0], [2, 2], [2, 2], [0, 0]] j) := hp.map _
    rw [variance_perm hpj]
    interval_cases j <;> norm_num [Spec.variance, Spec.mean, col]
  have hva : Spec.variance (along 2 (fun j => if j = 0 then 1 else -1) s1'.gen.rows) = 0 := by
    have hpa : (along 2 (fun j => if j = 0 then 1 else -1) s1'.gen.rows).Perm
      (along 2 (fun j => if j = 0 then 1 else -1) [[0, 0], [2, 2], [2, 2], [0, 0]]) := hp.map _
    rw [variance_perm hpa]
    norm_num [Spec.variance, Spec.mean, along, Finset.sum_range_succ]
  have hv : Spec.mean (s1'.gen.rows.map (formsCost 1 2 1 0 fun _ j => if j = 0 then 1 else -1)) +
      ∑ r ∈ Finset.range 1, (1 : ℕ → ℝ) r * (independentSpread 2 0 (fun j => if j = 0 then 1 else -1) s1'.gen.rows -
        Spec.variance (along 2 (fun j => if j = 0 then 1 else -1) s1'.gen.rows)) = 2 := by
    rw [hmean, hva, Finset.sum_range_one]
    unfold independentSpread
    rw [Finset.sum_range_succ, Finset.sum_range_one, hvj 0 (by omega), hvj 1 (by omega)]
    norm_num
  rw [← hv]
  exact hE

end Verif
