/-
C103: EMNA with a positive `lower_factor` may search a single line for ever.
-/
import Verif.Props.EmnaLeave
import Verif.Props.Converge
import Verif.Lemmas.Order

set_option linter.unusedSectionVars false

namespace Verif

open PyCost Spec MeasureTheory ProbabilityTheory

namespace Spec

/-- The individual is on the line through `(x, y)` with direction `(1, 1)`. -/
def OnLine (x y : ℝ) (r : List ℝ) : Prop := ∃ d : ℝ, r = [x + d, y + d]

/-- A continuous cost function with bounded level sets and the minimum 0 at `(3l, -l)`; there is a local minimum at
`(0, 2l)`. -/
noncomputable def twoValleys (l : ℝ) (r : List ℝ) : ℝ :=
  min |r.getD 0 0 - r.getD 1 0 - 4 * l| (|r.getD 0 0 - r.getD 1 0 + 2 * l| + 3 * l) +
    |r.getD 0 0 + r.getD 1 0 - 2 * l|

end Spec

/-- The matrix with all four entries `l` has a root with equal columns. -/
theorem svdRoot_line {l : ℝ} {c a : ℕ → ℕ → ℝ} (hr : IsSvdRoot 2 c a) (hc : ∀ i < 2, ∀ j < 2, c i j = l) :
    ∀ k < 2, a k 0 = a k 1 := by
  have h := svdRoot_gram_sq hr
  have e00 := congrFun (congrFun h 0) 0
  have e01 := congrFun (congrFun h 0) 1
  have e11 := congrFun (congrFun h 1) 1
  simp only [Matrix.mul_apply, Matrix.transpose_apply, Fin.sum_univ_two, toMat] at e00 e01 e11
  simp only [Fin.val_zero, Fin.val_one, Fin.isValue] at e00 e01 e11
  rw [hc 0 (by norm_num) 0 (by norm_num), hc 1 (by norm_num) 0 (by norm_num)] at e00 e01
  rw [hc 0 (by norm_num) 1 (by norm_num), hc 1 (by norm_num) 1 (by norm_num)] at e01 e11
  set p := a 0 0 * a 0 0 + a 1 0 * a 1 0 with hp
  set q := a 0 0 * a 0 1 + a 1 0 * a 1 1 with hq
  set r := a 0 1 * a 0 1 + a 1 1 * a 1 1 with hr'
  have hq' : a 0 1 * a 0 0 + a 1 1 * a 1 0 = q := by rw [hq]; ring
  rw [hq'] at e00 e11
  have h1 : (p - q) ^ 2 + (q - r) ^ 2 = 0 := by nlinarith
  have h2 : p = q := by nlinarith [sq_nonneg (p - q), sq_nonneg (q - r)]
  have h3 : q = r := by nlinarith [sq_nonneg (p - q), sq_nonneg (q - r)]
  have h4 : (a 0 0 - a 0 1) ^ 2 + (a 1 0 - a 1 1) ^ 2 = 0 := by nlinarith
  intro k hk
  interval_cases k
  · nlinarith [sq_nonneg (a 0 0 - a 0 1), sq_nonneg (a 1 0 - a 1 1)]
  · nlinarith [sq_nonneg (a 0 0 - a 0 1), sq_nonneg (a 1 0 - a 1 1)]

/-- In a sorted list, the elements below a threshold come first. -/
theorem filter_prefix {R : Type} {c : ℝ} {P : List (R × ℝ)}
    (hs : P.Pairwise (fun a b => LeNanLast a.2 b.2)) : P.filter (fun p => p.2 ≤ c) <+: P := by
  induction P with
  | nil => simp
  | cons p P ih =>
    obtain ⟨h1, h2⟩ := List.pairwise_cons.1 hs
    by_cases hp : p.2 ≤ c
    · rw [List.filter_cons_of_pos (by simpa using hp)]
      exact (List.prefix_cons_inj p).2 (ih h2)
    · rw [List.filter_cons_of_neg (by simpa using hp), List.filter_eq_nil_iff.2]
      · simp
      · intro q hq
        have h3 : p.2 ≤ q.2 := by
          have := (h1 q hq).1
          simpa [PyCost.lt] using this
        simp only [decide_eq_true_eq, not_le]
        exact (not_le.1 hp).trans_le h3

/-- The two best of a pool. -/
theorem two_best {R : Type} {c : ℝ} {P Q rest : List (R × ℝ)} {p q : R × ℝ}
    (hs : P.Pairwise (fun a b => LeNanLast a.2 b.2)) (hP : P.Perm Q) (hQ : Q.Perm (p :: q :: rest))
    (hp : p.2 ≤ c) (hq : q.2 ≤ c) (hr : ∀ x ∈ rest, c < x.2) : (P.take 2).Perm [p, q] := by
  have h1 : (P.filter (fun p => p.2 ≤ c)).Perm [p, q] := by
    refine ((hP.trans hQ).filter _).trans ?_
    rw [List.filter_cons_of_pos (by simpa using hp), List.filter_cons_of_pos (by simpa using hq),
      List.filter_eq_nil_iff.2]
    intro x hx
    simpa using hr x hx
  have h2 := List.prefix_iff_eq_take.1 (filter_prefix (c := c) hs)
  have h3 : (P.filter (fun p => p.2 ≤ c)).length = 2 := h1.length_eq
  rw [h3] at h2
  rw [← h2]
  exact h1

/-- What is learned from the two points `(x, y + 2l)` and `(x + 2l, y)`, and that only points on a line are sampled
from it. -/
theorem line_sampled {fac : List (List ℝ) → List (List ℝ)} (hfac : Decomposes 2 fac) {b b' : MultiGauss ℝ}
    {g gen : Gen (List ℝ)} {size : ℤ} {ω : Draws ℝ} (hn : b.n = 2) (hl : 0 ≤ b.lb) (hlu : b.lb ≤ b.ub) {x y : ℝ}
    (hg : g.rows.Perm [[x, y + 2 * b.lb], [x + 2 * b.lb, y]]) (h : b.learn Real.sqrt g = .ok b')
    (hs : b'.sample fac size ω = .ok gen) : ∀ r ∈ gen.rows, OnLine x y r := by
  obtain ⟨hgood, hsym, hoff⟩ := emna_learned hlu h hs
  rw [hn] at hgood hsym hoff
  have hstat : ∀ F : List ℝ → ℝ, (g.rows.map F).sum = F [x, y + 2 * b.lb] + F [x + 2 * b.lb, y] := by
    intro F
    rw [(hg.map F).sum_eq]
    simp
  have hlen : g.rows.length = 2 := hg.length_eq
  have hmean0 : mean (col g.rows 0) = x + b.lb := by
    rw [mean, col, hstat, List.length_map, hlen]
    simp
    ring
  have hmean1 : mean (col g.rows 1) = y + b.lb := by
    rw [mean, col, hstat, List.length_map, hlen]
    simp
    ring
  have hstd0 : colStd Real.sqrt g.rows 0 = b.lb := by
    rw [colStd_eq, Spec.variance, hmean0, mean, List.length_map, col, List.map_map, hstat, List.length_map, hlen]
    simp only [Function.comp, List.getD_cons_zero]
    rw [show ((x - (x + b.lb)) ^ 2 + (x + 2 * b.lb - (x + b.lb)) ^ 2) / ((2 : ℕ) : ℝ) = b.lb ^ 2 by push_cast; ring]
    exact Real.sqrt_sq hl
  have hstd1 : colStd Real.sqrt g.rows 1 = b.lb := by
    rw [colStd_eq, Spec.variance, hmean1, mean, List.length_map, col, List.map_map, hstat, List.length_map, hlen]
    simp only [Function.comp, List.getD_cons_succ, List.getD_cons_zero]
    rw [show ((y + 2 * b.lb - (y + b.lb)) ^ 2 + (y - (y + b.lb)) ^ 2) / ((2 : ℕ) : ℝ) = b.lb ^ 2 by push_cast; ring]
    exact Real.sqrt_sq hl
  have hcov : covEntry g.rows 0 1 = - (2 * b.lb ^ 2) := by
    rw [covEntry_eq, Spec.covariance, hmean0, hmean1, col, col, List.zipWith_map, List.zipWith_self, hstat,
      List.length_map, hlen]
    simp only [List.getD_cons_succ, List.getD_cons_zero]
    push_cast
    ring
  have hu' := h
  unfold MultiGauss.learn at hu'
  split at hu'
  · simp at hu'
  split at hu'
  · simp at hu'
  split at hu'
  · simp at hu'
  have hu' := (Except.ok.inj hu').symm
  have hcols : g.cols = 2 := by
    have := hgood.rows; rw [hu'] at this; simpa using this
  have h01 : entry b'.cov 0 1 = b.lb := by
    rw [hu', hcols]
    simp only
    rw [entry_map (by norm_num) (by norm_num), if_neg (by norm_num), clampEntry_eq hlu, hcov, clip]
    rw [max_eq_left]
    refine (min_le_right _ _).trans ?_
    nlinarith [sq_nonneg b.lb]
  have h00 : entry b'.cov 0 0 = b.lb := by
    rw [hu', hcols]
    simp only
    rw [entry_map (by norm_num) (by norm_num), if_pos rfl, hstd0]
  have h11 : entry b'.cov 1 1 = b.lb := by
    rw [hu', hcols]
    simp only
    rw [entry_map (by norm_num) (by norm_num), if_pos rfl, hstd1]
  have hconst : ∀ i < 2, ∀ j < 2, entry b'.cov i j = b.lb := by
    intro i hi j hj
    interval_cases i <;> interval_cases j
    · exact h00
    · exact h01
    · rw [hsym 1 (by norm_num) 0 (by norm_num)]; exact h01
    · exact h11
  have hcol := svdRoot_line (hfac _ hsym) hconst
  have hm0 : b'.means.getD 0 0 = x + b.lb := by
    rw [hu', hn]; simp [List.getD_eq_getElem?_getD, colMean_eq, hmean0]
  have hm1 : b'.means.getD 1 0 = y + b.lb := by
    rw [hu', hn]; simp [List.getD_eq_getElem?_getD, colMean_eq, hmean1]
  have h0 : 0 ≤ size := by have := (MultiGauss.sample_shape hs).2.2.2; omega
  rw [MultiGauss.sample_eq hgood h0] at hs
  intro r hr
  rw [← Except.ok.inj hs] at hr
  obtain ⟨i, _, rfl⟩ := List.mem_map.1 hr
  refine ⟨b.lb + (ω i 0 * entry (fac b'.cov) 0 0 + ω i 1 * entry (fac b'.cov) 1 0), ?_⟩
  simp only [List.range_succ, List.range_zero, List.nil_append, List.map_cons, List.map_nil,
    List.cons_append, List.sum_cons, List.sum_nil, hm0, hm1, hcol 0 (by norm_num), hcol 1 (by norm_num)]
  congr 1
  · ring
  · congr 1
    ring

section run
variable {fl : ℝ → ℝ} {fac : List (List ℝ) → List (List ℝ)} {cfg : EMNACfg ℝ} {env : Env ℝ}
variable {g : List ℝ → ℝ} {ftol : ℝ} {ρ : Rand (Draws ℝ)}
variable {e : Eda (List ℝ) (MultiGauss ℝ) (Draws ℝ)} {b : MultiGauss ℝ}

/-- **C103** `EMNA` with two variables, `lower_factor` `l`, two selected individuals and an elite of two individuals: if
the first generation contains `(x, y + 2l)` and `(x + 2l, y)` and these are better than the rest of the first generation
and than all points of the line `(x + d, y + d)`, then only points of this line are evaluated after the first
generation, whatever the random numbers and the number of iterations. -/
theorem C103_line (hv : env.Valid) (h : EMNA fl Real.sqrt fac cfg = .ok (e, b)) (hn : cfg.base.nVars = 2)
    (hfac : Decomposes 2 fac) (hnoise : cfg.base.noiseAttr = 0)
    (hlf : 0 ≤ cfg.lowerFactor) (hlu : cfg.lowerFactor ≤ cfg.upperFactor)
    (htr : selLen fl cfg.base.sizeGen cfg.base.alpha = 2) (hel : selLen fl cfg.base.sizeGen cfg.base.eliteFactor = 2)
    {x y : ℝ} {d : Gen (List ℝ)} {w : List ℝ} {rows rest : List (List ℝ)} (hd : cfg.base.initData = some d)
    (hrows : d.rows = w :: rows)
    (hperm : rows.Perm ([x, y + 2 * cfg.lowerFactor] :: [x + 2 * cfg.lowerFactor, y] :: rest)) {c : ℝ}
    (hc1 : g [x, y + 2 * cfg.lowerFactor] ≤ c) (hc2 : g [x + 2 * cfg.lowerFactor, y] ≤ c)
    (hw : c < g w) (hrest : ∀ r ∈ rest, c < g r) (hline : ∀ r, OnLine x y r → c < g r)
    {res : EdaResult (List ℝ) ℝ} {s : St (List ℝ) ℝ (MultiGauss ℝ)}
    (hrun : minimize env e (fun _ => g) ftol b ρ = .ok (res, s)) :
    ∀ p ∈ (s.log.drop 1).flatten, OnLine x y p.1 := by
  obtain ⟨he, _, hb⟩ := EMNA_ok h
  have hm := mkEda_ok he
  set l := cfg.lowerFactor with hl
  set A : List ℝ := [x, y + 2 * l] with hA
  set B : List ℝ := [x + 2 * l, y] with hB
  have hzip : ∀ rows : List (List ℝ), rows.zip (rows.map g) = rows.map (fun r => (r, g r)) := by
    intro rows
    rw [← List.map_id rows, List.map_map, List.zip_map', List.map_id]
    simp
  have key : Aligned s ∧ (s.pm.n = 2 ∧ s.pm.lb = l ∧ s.pm.ub = cfg.upperFactor) ∧
      (∃ others, (poolOf s).Perm ((A, g A) :: (B, g B) :: others) ∧ ∀ p ∈ others, c < p.2) ∧ s.log ≠ [] ∧
      ∀ p ∈ (s.log.drop 1).flatten, OnLine x y p.1 := by
    refine minimize_inv (fun s => Aligned s ∧ (s.pm.n = 2 ∧ s.pm.lb = l ∧ s.pm.ub = cfg.upperFactor) ∧
      (∃ others, (poolOf s).Perm ((A, g A) :: (B, g B) :: others) ∧ ∀ p ∈ others, c < p.2) ∧ s.log ≠ [] ∧
      ∀ p ∈ (s.log.drop 1).flatten, OnLine x y p.1) ?_ ?_ hrun
    · intro s0 h0
      have ha := start_aligned hv h0
      obtain ⟨ev, r0, c0, best, i, hs⟩ := start_ok h0
      have hgen : s0.gen = d := by
        have := hs.init
        rw [(hm.initSome d hd).2] at this
        exact (Except.ok.inj this).symm
      have hst := check_stored hv hs.check
      rw [callRows_pure, hgen, hrows] at hst
      have hr0 : r0 = w := by
        have := hs.row0
        rw [hgen, hrows] at this
        simpa using this.symm
      have hc0 : c0 = g w := by
        have := hs.cost0
        rw [hst] at this
        simpa using this.symm
      refine ⟨ha, by rw [hs.pm, hb]; exact ⟨hn, rfl, rfl⟩, ?_, by rw [hs.log]; simp, by rw [hs.log]; simp⟩
      refine ⟨(w, g w) :: (w, g w) :: rest.map (fun r => (r, g r)), ?_, ?_⟩
      · rw [poolOf_eq ha, hs.evals, hs.elite, hs.evalsElite, hst, hgen, hrows, hr0, hc0, hzip]
        simp only [List.map_cons, List.zip_cons_cons, List.zip_nil_right]
        have h1 := hperm.map (fun r => (r, g r))
        simp only [List.map_cons] at h1
        refine (List.perm_append_comm (l₂ := [(w, g w)])).trans ?_
        refine ((h1.cons (w, g w)).cons (w, g w)).trans ?_
        refine ((List.Perm.swap _ _ _).cons _).trans ?_
        refine (List.Perm.swap _ _ _).trans (List.Perm.cons _ ?_)
        exact ((List.Perm.swap _ _ _).cons _).trans (List.Perm.swap _ _ _)
      · intro p hp
        simp only [List.mem_cons, List.mem_map] at hp
        rcases hp with rfl | rfl | ⟨r, hr, rfl⟩
        · exact hw
        · exact hw
        · exact hrest r hr
    · rintro noise t s s' b' ⟨ha, ⟨k1, k2, k3⟩, ⟨others, hpool, hoth⟩, hlog, hlines⟩ hnz hst
      have ha' := step_aligned hv ha hst
      obtain ⟨s1, noisy, ev, best, i, ind, hs⟩ := step_ok hst
      rw [hm.mkNoise, hnoise] at hnz
      simp [mkWhiteNoise] at hnz
      have hnoisy := hs.noise
      rw [← hnz] at hnoisy
      have hnoisy := addNoise_zero_eq hnoisy
      have hu := hs.update
      rw [hm.updatePm] at hu
      have hu : s.pm.learn Real.sqrt noisy = .ok s'.pm := hu
      have hsm := hs.sample
      rw [hm.sample] at hsm
      have hsm : s'.pm.sample fac cfg.base.sizeGen (ρ.sample t) = .ok s'.gen := hsm
      obtain ⟨P, hP, hsort, t1, t2, t3, t4⟩ := truncation_ok hv ha hs.trunc
      have htwo := two_best hsort hP hpool hc1 hc2 hoth
      have hlen : 2 ≤ P.length := by
        rw [hP.length_eq, hpool.length_eq]; simp
      have hsl : ∀ k : ℤ, k = 2 → sliceLen P.length k = 2 := by
        rintro k rfl
        simp [sliceLen]
        omega
      rw [hsl _ (by rw [hm.truncLen, htr])] at t1 t2
      rw [hsl _ (by rw [hm.eliteLen, hel])] at t3 t4
      have hsel : s1.gen.rows.Perm [A, B] := by
        rw [t1]; exact htwo.map Prod.fst
      have hnew := line_sampled hfac k1 (by rw [k2]; exact hlf) (by rw [k2, k3]; exact hlu)
        (x := x) (y := y) (by rw [hnoisy, k2]; exact hsel) hu hsm
      obtain ⟨q1, q2, q3⟩ := MultiGauss.learn_key hu
      have hstored := check_stored hv hs.check
      rw [callRows_pure] at hstored
      refine ⟨ha', ⟨by rw [q1, k1], by rw [q2, k2], by rw [q3, k3]⟩, ?_, by rw [hs.log]; simp, ?_⟩
      · refine ⟨s'.gen.rows.map (fun r => (r, g r)), ?_, ?_⟩
        · rw [poolOf_eq ha', hs.evals, hstored, hs.elite, hs.evalsElite, t3, t4, hzip]
          have : ((P.take 2).map Prod.fst).zip ((P.take 2).map Prod.snd) = P.take 2 := by
            rw [List.zip_map']; simp
          rw [this]
          refine List.perm_append_comm.trans ?_
          exact htwo.append_right _
        · intro p hp
          obtain ⟨r, hr, rfl⟩ := List.mem_map.1 hp
          exact hline r (hnew r hr)
      · intro p hp
        rw [hs.log, List.drop_append_of_le_length (by
          rcases hh : s.log with _ | ⟨_, _⟩
          · exact absurd hh hlog
          · simp), List.flatten_append, List.mem_append] at hp
        rcases hp with hp | hp
        · exact hlines p hp
        · have hcalls := (check_calls hv hs.check).2
          simp only [List.flatten_cons, List.flatten_nil, List.append_nil] at hp
          rw [hcalls] at hp
          exact hnew _ (List.of_mem_zip hp).1
  exact key.2.2.2.2

/-- **C103** as a consequence, nothing better than the better one of these two individuals is ever found. -/
theorem C103_floor (hv : env.Valid) (h : EMNA fl Real.sqrt fac cfg = .ok (e, b)) (hn : cfg.base.nVars = 2)
    (hfac : Decomposes 2 fac) (hnoise : cfg.base.noiseAttr = 0)
    (hlf : 0 ≤ cfg.lowerFactor) (hlu : cfg.lowerFactor ≤ cfg.upperFactor)
    (htr : selLen fl cfg.base.sizeGen cfg.base.alpha = 2) (hel : selLen fl cfg.base.sizeGen cfg.base.eliteFactor = 2)
    {x y : ℝ} {d : Gen (List ℝ)} {w : List ℝ} {rows rest : List (List ℝ)} (hd : cfg.base.initData = some d)
    (hrows : d.rows = w :: rows)
    (hperm : rows.Perm ([x, y + 2 * cfg.lowerFactor] :: [x + 2 * cfg.lowerFactor, y] :: rest)) {m c : ℝ}
    (hm1 : m ≤ g [x, y + 2 * cfg.lowerFactor]) (hm2 : m ≤ g [x + 2 * cfg.lowerFactor, y])
    (hc1 : g [x, y + 2 * cfg.lowerFactor] ≤ c) (hc2 : g [x + 2 * cfg.lowerFactor, y] ≤ c)
    (hw : c < g w) (hrest : ∀ r ∈ rest, c < g r) (hline : ∀ r, OnLine x y r → c < g r)
    {res : EdaResult (List ℝ) ℝ} {s : St (List ℝ) ℝ (MultiGauss ℝ)}
    (hrun : minimize env e (fun _ => g) ftol b ρ = .ok (res, s)) :
    (∀ v ∈ res.history, m ≤ v) ∧ m ≤ res.bestCost := by
  have hmc : m ≤ c := hm1.trans hc1
  have hlog : ∀ p ∈ s.log.flatten, m ≤ g p.1 := by
    intro p hp
    obtain ⟨batch, hb, hpb⟩ := List.mem_flatten.1 hp
    obtain ⟨t, ht⟩ := List.mem_iff_getElem?.1 hb
    rcases Nat.eq_zero_or_pos t with rfl | hpos
    · obtain ⟨g0, batch0, hg0, hb0, hrows0⟩ := first_batch hv hrun
      rw [ht] at hb0
      obtain rfl := Option.some.inj hb0
      rw [((mkEda_ok (EMNA_ok h).1).initSome d hd).2] at hg0
      have hmem : p.1 ∈ d.rows := by
        rw [Except.ok.inj hg0, ← hrows0]; exact List.mem_map.2 ⟨p, hpb, rfl⟩
      rw [hrows, List.mem_cons] at hmem
      rcases hmem with hmem | hmem
      · rw [hmem]; exact hmc.trans hw.le
      · have := hperm.subset hmem
        simp only [List.mem_cons] at this
        rcases this with h1 | h1 | h1
        · rw [h1]; exact hm1
        · rw [h1]; exact hm2
        · exact hmc.trans (hrest _ h1).le
    · have hmem : p ∈ (s.log.drop 1).flatten := by
        refine List.mem_flatten.2 ⟨batch, List.mem_iff_getElem?.2 ⟨t - 1, ?_⟩, hpb⟩
        rw [List.getElem?_drop, show 1 + (t - 1) = t by omega]
        exact ht
      exact hmc.trans (hline _ (C103_line hv h hn hfac hnoise hlf hlu htr hel hd hrows hperm hc1 hc2 hw hrest hline
        hrun p hmem)).le
  have hhist : ∀ v ∈ res.history, m ≤ v := by
    intro v hvm
    obtain ⟨hlen, hf, hmin⟩ := C04_history_is_min hv hrun
    obtain ⟨t, ht⟩ := List.mem_iff_getElem?.1 hvm
    have htl := (List.getElem?_eq_some_iff.1 ht).1
    have hx := List.getElem?_eq_getElem (l := s.log) (i := t) (by omega)
    obtain ⟨p, hp, rfl⟩ := List.mem_map.1 (hmin t v _ ht hx).1
    have hpf : p ∈ s.log.flatten := List.mem_flatten.2 ⟨_, List.getElem_mem (by omega), hp⟩
    obtain ⟨i, hi⟩ := List.mem_iff_getElem?.1 hpf
    rw [show p.2 = g p.1 from hf i p.1 p.2 hi]
    exact hlog p hpf
  exact ⟨hhist, hhist _ (C01_best_cost_observed hv hrun).1⟩

end run

section valley
variable {l : ℝ}

theorem twoValleys_continuous (l : ℝ) : Continuous fun x : Fin 2 → ℝ => twoValleys l (List.ofFn x) := by
  have h : (fun x : Fin 2 → ℝ => twoValleys l (List.ofFn x)) = fun x =>
      min |x 0 - x 1 - 4 * l| (|x 0 - x 1 + 2 * l| + 3 * l) + |x 0 + x 1 - 2 * l| := by
    funext x
    simp [twoValleys, List.ofFn_succ]
  rw [h]
  fun_prop

theorem twoValleys_coercive (hl : 0 < l) : Coercive 2 (twoValleys l) := by
  intro c
  refine ⟨c + 6 * l, fun x hx => ?_⟩
  have h : twoValleys l (List.ofFn x) =
      min |x 0 - x 1 - 4 * l| (|x 0 - x 1 + 2 * l| + 3 * l) + |x 0 + x 1 - 2 * l| := by
    simp [twoValleys, List.ofFn_succ]
  rw [h] at hx
  have h1 : |x 0 - x 1| - 4 * l ≤ min |x 0 - x 1 - 4 * l| (|x 0 - x 1 + 2 * l| + 3 * l) := by
    refine le_min ?_ ?_
    · have := abs_sub_abs_le_abs_sub (x 0 - x 1) (4 * l)
      rw [abs_of_pos (by linarith : 0 < 4 * l)] at this
      exact this
    · have := abs_sub_abs_le_abs_sub (x 0 - x 1) (-(2 * l))
      rw [abs_neg, abs_of_pos (by linarith : 0 < 2 * l), sub_neg_eq_add] at this
      linarith
  have h2 : |x 0 + x 1| - 2 * l ≤ |x 0 + x 1 - 2 * l| := by
    have := abs_sub_abs_le_abs_sub (x 0 + x 1) (2 * l)
    rwa [abs_of_pos (by linarith : 0 < 2 * l)] at this
  have h3 : |x 0 - x 1| + |x 0 + x 1| ≤ c + 6 * l := by linarith
  have h4 := abs_nonneg (x 0 - x 1)
  have h5 := abs_nonneg (x 0 + x 1)
  have b1 := abs_le.1 (le_refl |x 0 - x 1|)
  have b2 := abs_le.1 (le_refl |x 0 + x 1|)
  intro j
  fin_cases j
  · show |x 0| ≤ _
    rw [abs_le]; constructor <;> linarith [b1.1, b1.2, b2.1, b2.2]
  · show |x 1| ≤ _
    rw [abs_le]; constructor <;> linarith [b1.1, b1.2, b2.1, b2.2]

/-- `EMNA` with five individuals, `alpha = 0.5`, `elite_factor = 0.4` (the defaults), no white noise, the given
`lower_factor` and `init_data`. -/
noncomputable def Ex.valleyCfg (l u : ℝ) (k d : ℤ) : EMNACfg ℝ :=
  { base := { sizeGen := 5, maxIter := k, deadIter := d, nVars := 2, alpha := 1/2, eliteFactor := 2/5,
              parallel := false, wNoise := none,
              initData := some { dt := .float, cols := 2, rows := [[l, l], [0, 2 * l], [2 * l, 0], [l, l], [l, l]] } }
    lower := .scalar (-10), upper := .scalar 10, lowerFactor := l, upperFactor := u }

/-- **C103** the negative counterpart of C96 for `EMNA`: for every `lower_factor > 0` there are a continuous cost
function with bounded level sets and the minimum 0, and `init_data`, such that no run of `EMNA`, however long and
whatever the random numbers are, ever evaluates an individual with a cost below `2 * lower_factor`, although the elite is
as large as the selection. -/
theorem C103_not_minimised {env : Env ℝ} (hv : env.Valid) {fac : List (List ℝ) → List (List ℝ)}
    (hfac : Decomposes 2 fac) {u : ℝ} (hl : 0 < l) (hu : l ≤ u) {k d : ℤ} (hk : d ≤ k) :
    Continuous (fun x : Fin 2 → ℝ => twoValleys l (List.ofFn x)) ∧ Coercive 2 (twoValleys l) ∧
    twoValleys l [3 * l, -l] = 0 ∧
    ∃ e b, EMNA id Real.sqrt fac (Ex.valleyCfg l u k d) = .ok (e, b) ∧ ∀ (ftol : ℝ) (ρ : Rand (Draws ℝ)), ∃ res s,
      minimize env e (fun _ => twoValleys l) ftol b ρ = .ok (res, s) ∧ (∀ v ∈ res.history, 2 * l ≤ v) ∧
      2 * l ≤ res.bestCost ∧ ∀ p ∈ (s.log.drop 1).flatten, OnLine 0 0 p.1 := by
  refine ⟨twoValleys_continuous l, twoValleys_coercive hl, ?_, ?_⟩
  · simp [twoValleys]
    ring_nf
    simp
    positivity
  have hval : UniformValid env.cpu id (Ex.valleyCfg l u k d).base (Ex.valleyCfg l u k d).lower
      (Ex.valleyCfg l u k d).upper 5 :=
    { dead := hk, size := le_refl _, pos := by norm_num
      trunc := by norm_num [Ex.valleyCfg, selLen, pyInt, Num.truncZ]
      cpu := by intro h; simp [Ex.valleyCfg] at h
      noise := .inl rfl, lower := trivial, upper := trivial
      data := by
        intro d hd
        simp only [Ex.valleyCfg, Option.some.injEq] at hd
        subst hd
        exact ⟨⟨rfl, by intro r hr; simp at hr; rcases hr with rfl | rfl | rfl | rfl <;> rfl, by simp, by simp⟩, by simp⟩ }
  have hrun : ∀ (ftol : ℝ) (ρ : Rand (Draws ℝ)), ∃ e b, EMNA id Real.sqrt fac (Ex.valleyCfg l u k d) = .ok (e, b) ∧
      ∃ res s, minimize env e (fun _ => twoValleys l) ftol b ρ = .ok (res, s) := fun ftol ρ =>
    C53_EMNA_never_raises hv hval (le_refl _) (by norm_num)
      (by norm_num [Ex.valleyCfg, selLen, pyInt, Num.truncZ]) (fun _ _ => field_isNum _)
  obtain ⟨e, b, h, _⟩ := hrun 0 ⟨fun _ _ => 0, fun _ _ => 0, fun _ _ _ => 0, fun _ _ _ => 0⟩
  refine ⟨e, b, h, fun ftol ρ => ?_⟩
  obtain ⟨e', b', h', res, s, hr⟩ := hrun ftol ρ
  rw [h] at h'
  obtain ⟨rfl, rfl⟩ := Prod.mk.inj (Except.ok.inj h')
  have hA : twoValleys l [0, 0 + 2 * l] = 3 * l := by
    simp only [twoValleys, List.getD_cons_zero, List.getD_cons_succ]
    rw [show (0 : ℝ) - (0 + 2 * l) - 4 * l = -(6 * l) by ring, show (0 : ℝ) - (0 + 2 * l) + 2 * l = 0 by ring,
      show (0 : ℝ) + (0 + 2 * l) - 2 * l = 0 by ring, abs_neg, abs_of_pos (by linarith : 0 < 6 * l), abs_zero,
      min_eq_right (by linarith)]
    ring
  have hB : twoValleys l [0 + 2 * l, 0] = 2 * l := by
    simp only [twoValleys, List.getD_cons_zero, List.getD_cons_succ]
    rw [show 0 + 2 * l - 0 - 4 * l = -(2 * l) by ring, show 0 + 2 * l - 0 + 2 * l = 4 * l by ring,
      show 0 + 2 * l + 0 - 2 * l = 0 by ring, abs_neg, abs_of_pos (by linarith : 0 < 2 * l),
      abs_of_pos (by linarith : 0 < 4 * l), abs_zero, min_eq_left (by linarith)]
    ring
  have hline : ∀ r, OnLine 0 0 r → 3 * l < twoValleys l r := by
    rintro r ⟨d, rfl⟩
    simp only [twoValleys, List.getD_cons_zero, List.getD_cons_succ]
    rw [show 0 + d - (0 + d) - 4 * l = -(4 * l) by ring, show 0 + d - (0 + d) + 2 * l = 2 * l by ring, abs_neg,
      abs_of_pos (by linarith : 0 < 4 * l), abs_of_pos (by linarith : 0 < 2 * l), min_eq_left (by linarith)]
    have := abs_nonneg (0 + d + (0 + d) - 2 * l)
    linarith
  have hll : 3 * l < twoValleys l [l, l] := hline _ ⟨l, by simp⟩
  have htr : selLen id (Ex.valleyCfg l u k d).base.sizeGen (Ex.valleyCfg l u k d).base.alpha = 2 := by
    norm_num [Ex.valleyCfg, selLen, pyInt, Num.truncZ]
  have hel : selLen id (Ex.valleyCfg l u k d).base.sizeGen (Ex.valleyCfg l u k d).base.eliteFactor = 2 := by
    norm_num [Ex.valleyCfg, selLen, pyInt, Num.truncZ]
  have hperm : [[0, 2 * l], [2 * l, 0], [l, l], [l, l]].Perm
      ([0, 0 + 2 * (Ex.valleyCfg l u k d).lowerFactor] :: [0 + 2 * (Ex.valleyCfg l u k d).lowerFactor, 0] ::
        [[l, l], [l, l]]) := by
    simp [Ex.valleyCfg]
  have hrest : ∀ r ∈ [[l, l], [l, l]], 3 * l < twoValleys l r := by
    intro r hr
    simp at hr
    rw [hr]; exact hll
  obtain ⟨h1, h2⟩ := C103_floor (m := 2 * l) (c := 3 * l) hv h rfl hfac rfl hl.le hu htr hel rfl rfl hperm
    (by change _ ≤ twoValleys l [0, 0 + 2 * l]; rw [hA]; linarith)
    (by change _ ≤ twoValleys l [0 + 2 * l, 0]; rw [hB])
    (by change twoValleys l [0, 0 + 2 * l] ≤ _; rw [hA])
    (by change twoValleys l [0 + 2 * l, 0] ≤ _; rw [hB]; linarith) hll hrest hline hr
  exact ⟨res, s, hr, h1, h2, C103_line hv h rfl hfac rfl hl.le hu htr hel rfl rfl hperm
    (by change twoValleys l [0, 0 + 2 * l] ≤ _; rw [hA])
    (by change twoValleys l [0 + 2 * l, 0] ≤ _; rw [hB]; linarith) hll hrest hline hr⟩

/-- C103: with the default `lower_factor` 0.5 and `upper_factor` 100, a million generations do not bring `best_cost`
below 1, although the minimum is 0. -/
example : ∃ fac : List (List ℝ) → List (List ℝ), Decomposes 2 fac ∧
    ∃ e b, EMNA id Real.sqrt fac (Ex.valleyCfg (1/2) 100 1000000 0) = .ok (e, b) ∧
      ∀ (ρ : Rand (Draws ℝ)), ∃ res s, minimize realEnv e (fun _ => twoValleys (1/2)) 0 b ρ = .ok (res, s) ∧
        1 ≤ res.bestCost := by
  obtain ⟨fac, hfac⟩ := svdRoots_symmetric 2
  obtain ⟨_, _, _, e, b, h, hr⟩ := C103_not_minimised (l := 1/2) (u := 100) (k := 1000000) (d := 0) realEnv_valid hfac
    (by norm_num) (by norm_num) (by norm_num)
  refine ⟨fac, hfac, e, b, h, fun ρ => ?_⟩
  obtain ⟨res, s, h1, _, h2, _⟩ := hr 0 ρ
  exact ⟨res, s, h1, by linarith⟩

end valley

end Verif
