/-
Multivariate Gaussian: C26 (`MultiGauss.learn`), C33 (`MultiGaussGenInit`), C08, C15 and C53 for
`EMNA`.
-/
import Verif.Lemmas.MultiGauss
import Verif.Props.Continuous
import Mathlib.Tactic.Ring

set_option linter.unusedSectionVars false

namespace Verif

open Spec PyCost

variable {K : Type} [Field K] [LinearOrder K] [IsStrictOrderedRing K]

/-! ### C26 -/

/-- **C26** (partial: the diagonal holds unfloored standard deviations and the matrix need not be
positive semidefinite) `MultiGauss.learn` on at least two rows of at least two variables: the means
are the column means, the matrix is square and symmetric, every off-diagonal entry is the sample
covariance forced into `[lower_bound, upper_bound]`, every diagonal entry is the population standard
deviation of the column. -/
theorem C26_learn_partial {sq : K → K} (hsq : IsSqrt sq) {b : MultiGauss K} {g : Gen (List K)}
    (hc : b.n = g.cols) (h2 : 2 ≤ b.n) (hr : 2 ≤ g.rows.length) (hlu : b.lb ≤ b.ub) :
    ∃ b', b.learn sq g = .ok b' ∧ b'.means.length = b.n ∧ b'.cov.length = b.n ∧
      Rect b.n b'.cov ∧ (∀ j < b.n, b'.means[j]? = some (mean (col g.rows j))) ∧
      ∀ i < b.n, ∀ j < b.n, entry b'.cov i j = entry b'.cov j i ∧
        (i ≠ j → entry b'.cov i j = clip b.lb b.ub (covariance (col g.rows i) (col g.rows j)) ∧
          b.lb ≤ entry b'.cov i j ∧ entry b'.cov i j ≤ b.ub) ∧
        (0 ≤ entry b'.cov i i ∧ entry b'.cov i i * entry b'.cov i i = variance (col g.rows i)) := by
  refine ⟨_, MultiGauss.learn_eq hc h2 hr, by simp, by simp, ?_, ?_, ?_⟩
  · intro r hr'
    simp only [List.mem_map] at hr'
    obtain ⟨i, _, rfl⟩ := hr'
    simp
  · intro j hj; simp [hj, colMean_eq]
  · intro i hi j hj
    rw [entry_map hi hj, entry_map hj hi, entry_map hi hi]
    refine ⟨?_, ?_, ?_⟩
    · by_cases hij : i = j
      · subst hij; rfl
      · rw [if_neg hij, if_neg (Ne.symm hij), covEntry_eq, covEntry_eq, covariance_comm]
    · intro hij
      rw [if_neg hij, clampEntry_eq hlu, covEntry_eq]
      exact ⟨rfl, le_max_left _ _, max_le hlu (min_le_left _ _)⟩
    · rw [if_pos rfl, colStd_eq]
      exact hsq _ (variance_nonneg _)

/-- **C26** one variable: `learn` always raises `ValueError`. -/
theorem C26_one_variable {sq : K → K} {b : MultiGauss K} {g : Gen (List K)}
    (hn : b.n ≤ 1) (hc : g.cols = 1) : b.learn sq g = .error .valueError := by
  unfold MultiGauss.learn
  rw [if_neg (by omega), if_pos hc]

/-- The value of the quadratic form of a matrix at `e_i - e_j`. -/
theorem quad_diff {n : ℕ} {m : ℕ → ℕ → K} {i j : ℕ} (hi : i < n) (hj : j < n) (hij : i ≠ j)
    (hpsd : PSD n m) : m i j + m j i ≤ m i i + m j j := by
  have h := hpsd (fun k => if k = i then 1 else if k = j then -1 else 0)
  have inner : ∀ a : ℕ, ∑ c ∈ Finset.range n,
      (if a = i then 1 else if a = j then -1 else (0 : K)) * m a c *
        (if c = i then 1 else if c = j then -1 else 0) =
      (if a = i then 1 else if a = j then -1 else (0 : K)) * (m a i - m a j) := by
    intro a
    have e1 : ∀ c, (if a = i then 1 else if a = j then -1 else (0 : K)) * m a c *
        (if c = i then 1 else if c = j then -1 else 0) =
        (if c = i then (if a = i then 1 else if a = j then -1 else (0 : K)) * m a i else 0) +
        (if c = j then -((if a = i then 1 else if a = j then -1 else (0 : K)) * m a j) else 0) := by
      intro c
      by_cases h1 : c = i
      · subst h1
        rw [if_pos rfl, if_pos rfl, if_neg hij]; ring
      · rw [if_neg h1, if_neg h1]
        by_cases h2 : c = j
        · subst h2; rw [if_pos rfl, if_pos rfl]; ring
        · rw [if_neg h2, if_neg h2]; ring
    rw [Finset.sum_congr rfl (fun c _ => e1 c), Finset.sum_add_distrib, Finset.sum_ite_eq',
      Finset.sum_ite_eq', if_pos (Finset.mem_range.2 hi), if_pos (Finset.mem_range.2 hj)]
    ring
  rw [Finset.sum_congr rfl (fun a _ => inner a)] at h
  have e2 : ∀ a, (if a = i then 1 else if a = j then -1 else (0 : K)) * (m a i - m a j) =
      (if a = i then m i i - m i j else 0) + (if a = j then -(m j i - m j j) else 0) := by
    intro a
    by_cases h1 : a = i
    · subst h1; rw [if_pos rfl, if_pos rfl, if_neg hij]; ring
    · rw [if_neg h1, if_neg h1]
      by_cases h2 : a = j
      · subst h2; rw [if_pos rfl, if_pos rfl]; ring
      · rw [if_neg h2, if_neg h2]; ring
  rw [Finset.sum_congr rfl (fun a _ => e2 a), Finset.sum_add_distrib, Finset.sum_ite_eq',
      Finset.sum_ite_eq', if_pos (Finset.mem_range.2 hi), if_pos (Finset.mem_range.2 hj)] at h
  linarith

/-- **C26** whenever the standard deviations of two variables add up to less than twice
`lower_bound` (which happens when the search converges), the learned matrix is *not* positive
semidefinite. -/
theorem C26_converged_not_psd {sq : K → K} {b b' : MultiGauss K}
    {g : Gen (List K)} (hc : b.n = g.cols) (h2 : 2 ≤ b.n) (hr : 2 ≤ g.rows.length)
    (hlu : b.lb ≤ b.ub) (h : b.learn sq g = .ok b') {i j : ℕ} (hi : i < b.n) (hj : j < b.n)
    (hij : i ≠ j) (hsmall : sq (variance (col g.rows i)) + sq (variance (col g.rows j)) < 2 * b.lb) :
    ¬ PSD b.n (entry b'.cov) := by
  intro hpsd
  have hq := quad_diff hi hj hij hpsd
  rw [MultiGauss.learn_eq hc h2 hr] at h
  rw [← Except.ok.inj h] at hq
  simp only at hq
  rw [entry_map hi hj, entry_map hj hi, entry_map hi hi, entry_map hj hj, if_neg hij,
    if_neg (Ne.symm hij), if_pos rfl, if_pos rfl, colStd_eq, colStd_eq, clampEntry_eq hlu,
    clampEntry_eq hlu] at hq
  have h1 : b.lb ≤ clip b.lb b.ub (covEntry g.rows i j) := le_max_left _ _
  have h2 : b.lb ≤ clip b.lb b.ub (covEntry g.rows j i) := le_max_left _ _
  linarith

/-- **C26** exactly when the matrix learned for two variables is positive semidefinite: the product
of the two standard deviations must not be below the squared off-diagonal entry. -/
theorem C26_psd_two_variables {sq : K → K} (hsq : IsSqrt sq) {b b' : MultiGauss K}
    {g : Gen (List K)} (hn : b.n = 2) (hc : g.cols = 2) (hr : 2 ≤ g.rows.length)
    (hlu : b.lb ≤ b.ub) (h : b.learn sq g = .ok b') :
    PSD 2 (entry b'.cov) ↔
      clip b.lb b.ub (covariance (col g.rows 0) (col g.rows 1)) ^ 2 ≤
        sq (variance (col g.rows 0)) * sq (variance (col g.rows 1)) := by
  rw [MultiGauss.learn_eq (by omega) (by omega) hr] at h
  rw [← Except.ok.inj h]
  simp only [hn]
  have e00 : ∀ F : ℕ → ℕ → K, entry ((List.range 2).map (fun i => (List.range 2).map (fun j => F i j)))
      0 0 = F 0 0 := fun F => entry_map (by omega) (by omega)
  have e01 : ∀ F : ℕ → ℕ → K, entry ((List.range 2).map (fun i => (List.range 2).map (fun j => F i j)))
      0 1 = F 0 1 := fun F => entry_map (by omega) (by omega)
  have e10 : ∀ F : ℕ → ℕ → K, entry ((List.range 2).map (fun i => (List.range 2).map (fun j => F i j)))
      1 0 = F 1 0 := fun F => entry_map (by omega) (by omega)
  have e11 : ∀ F : ℕ → ℕ → K, entry ((List.range 2).map (fun i => (List.range 2).map (fun j => F i j)))
      1 1 = F 1 1 := fun F => entry_map (by omega) (by omega)
  unfold PSD
  simp only [Finset.sum_range_succ, Finset.sum_range_zero, zero_add]
  rw [e00, e01, e10, e11]
  simp only [if_true, if_neg (zero_ne_one), if_neg (one_ne_zero), colStd_eq, covEntry_eq,
    clampEntry_eq hlu, covariance_comm (rows := g.rows) 1 0]
  generalize hA : sq (variance (col g.rows 0)) = A
  generalize hB : sq (variance (col g.rows 1)) = B
  generalize clip b.lb b.ub (covariance (col g.rows 0) (col g.rows 1)) = c
  have hA0 : 0 ≤ A := by rw [← hA]; exact (hsq _ (variance_nonneg _)).1
  have hB0 : 0 ≤ B := by rw [← hB]; exact (hsq _ (variance_nonneg _)).1
  constructor
  · intro hq
    rcases hA0.eq_or_lt with hA0 | hA0
    · -- A = 0: the form at (B + 1, -c)
      have := hq (fun k => if k = 0 then B + 1 else -c)
      simp only [if_true, if_neg one_ne_zero] at this
      rw [← hA0] at this ⊢
      have : (B + 2) * c ^ 2 ≤ 0 := by nlinarith
      have h3 : 0 < B + 2 := by linarith
      have : c ^ 2 ≤ 0 := by
        by_contra hcon
        have := mul_pos h3 (not_le.1 hcon)
        linarith
      simpa using this
    · have := hq (fun k => if k = 0 then -c else A)
      simp only [if_true, if_neg one_ne_zero] at this
      have h3 : 0 ≤ A * (A * B - c ^ 2) := by nlinarith
      have := nonneg_of_mul_nonneg_right (by linarith : 0 ≤ A * (A * B - c ^ 2)) hA0
      linarith
  · intro hle x
    rcases hA0.eq_or_lt with hA0 | hA0
    · have hc0 : c = 0 := by
        rw [← hA0, zero_mul] at hle
        exact pow_eq_zero_iff (n := 2) (by norm_num) |>.1 (le_antisymm hle (sq_nonneg c))
      rw [hc0, ← hA0]
      have := mul_nonneg hB0 (sq_nonneg (x 1))
      nlinarith
    · have h1 : 0 ≤ (A * x 0 + c * x 1) ^ 2 + (A * B - c ^ 2) * x 1 ^ 2 :=
        add_nonneg (sq_nonneg _) (mul_nonneg (by linarith) (sq_nonneg _))
      have h2 : 0 ≤ A * (x 0 * A * x 0 + x 0 * c * x 1 + (x 1 * c * x 0 + x 1 * B * x 1)) := by
        nlinarith
      exact nonneg_of_mul_nonneg_right h2 hA0

/-- A dataset of two equal columns with deviation `1/10`. -/
noncomputable def Ex.narrow : Gen (List ℝ) := ⟨.float, 2, [[0, 0], [1/5, 1/5]]⟩

theorem Ex.narrow_std (j : ℕ) (hj : j < 2) : Real.sqrt (variance (col Ex.narrow.rows j)) = 1/10 := by
  have hv : variance (col Ex.narrow.rows j) = 1/10 * (1/10) := by
    have : j = 0 ∨ j = 1 := by omega
    rcases this with rfl | rfl <;> (simp [Ex.narrow, variance, mean, col]; norm_num)
  rw [hv, Real.sqrt_mul_self (by norm_num)]

/-- **C26** is false: with the default bounds of `EMNA` (0.5 and 100) the diagonal falls below the
lower bound and the matrix is not positive semidefinite. -/
theorem C26_refuted : ∃ b', (MultiGauss.new 2 (1/2 : ℝ) 100).learn Real.sqrt Ex.narrow = .ok b' ∧
    entry b'.cov 0 0 < 1/2 ∧ ¬ PSD 2 (entry b'.cov) := by
  have hl := MultiGauss.learn_eq (sq := Real.sqrt) (b := MultiGauss.new 2 (1/2 : ℝ) 100)
    (g := Ex.narrow) rfl (le_refl _) (le_refl _)
  refine ⟨_, hl, ?_, ?_⟩
  · have : (MultiGauss.new 2 (1/2 : ℝ) 100).n = 2 := rfl
    rw [this]
    rw [entry_map (by omega) (by omega), if_pos rfl, colStd_eq, Ex.narrow_std 0 (by omega)]
    norm_num
  · refine C26_converged_not_psd (b := MultiGauss.new 2 (1/2 : ℝ) 100) (g := Ex.narrow) rfl
      (le_refl _) (le_refl _) ?_ hl (i := 0) (j := 1) (by decide) (by decide) (by decide) ?_
    · show (1/2 : ℝ) ≤ 100; norm_num
    · rw [Ex.narrow_std 0 (by omega), Ex.narrow_std 1 (by omega)]
      show (1/10 + 1/10 : ℝ) < 2 * (1/2)
      norm_num

example : ∃ b', (MultiGauss.new 2 (1/2 : ℝ) 100).learn Real.sqrt Ex.narrow = .ok b' ∧
    b'.means[1]? = some (1/10) ∧ entry b'.cov 0 1 = 1/2 := by
  obtain ⟨b', h, _, _, _, hm, hcv⟩ := C26_learn_partial (g := Ex.narrow)
    (b := MultiGauss.new 2 (1/2 : ℝ) 100) real_isSqrt rfl (le_refl _) (le_refl _)
    (by show (1/2 : ℝ) ≤ 100; norm_num)
  refine ⟨b', h, ?_, ?_⟩
  · rw [hm 1 (by decide)]; simp [Ex.narrow, mean, col]; norm_num
  · rw [((hcv 0 (by decide) 1 (by decide)).2.1 (by decide)).1]
    simp [Ex.narrow, covariance, mean, col, clip, MultiGauss.new]; norm_num

/-! ### C33 -/

section c33
variable [FloorRing K]

/-- **C33** (partial: entries only) the default parameters are values of `arange(lb, ub + 1)`. -/
theorem C33_entries_partial {n : ℕ} {lb hb : K} {k : ℕ → ℕ → ℕ} {b : MultiGauss K}
    (h : multiGaussInit n [] [] lb hb k = .ok b) :
    b.Good n ∧ (∀ x ∈ b.means, lb ≤ x ∧ x < hb + 1) ∧
      ∀ i < n, ∀ j < n, lb ≤ entry b.cov i j ∧ entry b.cov i j < hb + 1 := by
  unfold multiGaussInit at h
  rw [if_neg (by simp), if_pos (by simp)] at h
  split at h
  · simp at h
  rename_i m hm
  split at h
  · simp at h
  rename_i c hc
  obtain ⟨m1, m2⟩ := choice_ok hm
  obtain ⟨c1, c2⟩ := choice_ok hc
  rw [← Except.ok.inj h]
  refine ⟨⟨rfl, m1, by simp, ?_⟩, ?_, ?_⟩
  · intro r hr
    obtain ⟨i, _, rfl⟩ := List.mem_map.1 hr
    simp
  · intro x hx
    exact arange_mem (m2 x hx)
  · intro i hi j hj
    simp only
    rw [entry_map hi hj]
    have hlt : i * n + j < c.length := by
      rw [c1]
      calc i * n + j < i * n + n := by omega
        _ = (i + 1) * n := by ring
        _ ≤ n * n := Nat.mul_le_mul_right n (by omega)
    rw [List.getD_eq_getElem?_getD, List.getElem?_eq_getElem hlt]
    exact arange_mem (c2 _ (List.getElem_mem hlt))

/-- **C33** *every* matrix of values of `arange(lb, ub + 1)`, symmetric or not, with any diagonal,
is the outcome of some draw. -/
theorem C33_every_matrix {n : ℕ} (lb hb : K) (M : ℕ → ℕ → ℕ) (hn : 0 < n)
    (hM : ∀ i < n, ∀ j < n, M i j < (arange lb (hb + 1)).length) :
    ∃ k b, multiGaussInit n [] [] lb hb k = .ok b ∧
      ∀ i < n, ∀ j < n, entry b.cov i j = lb + (M i j : K) := by
  have hne : arange lb (hb + 1) ≠ [] := by
    intro h0
    have := hM 0 hn 0 hn
    rw [h0] at this; simp at this
  refine ⟨fun a p => if a = 0 then 0 else M (p / n) (p % n), ?_⟩
  unfold multiGaussInit choice
  rw [if_neg (by simp), if_pos (by simp), if_neg (by simp [hne])]
  simp only
  rw [if_neg (by simp [hne])]
  refine ⟨_, rfl, ?_⟩
  intro i hi j hj
  simp only
  rw [entry_map hi hj]
  have hlt : i * n + j < n * n := by
    calc i * n + j < i * n + n := by omega
      _ = (i + 1) * n := by ring
      _ ≤ n * n := Nat.mul_le_mul_right n (by omega)
  have hdiv : (i * n + j) / n = i := by
    rw [Nat.mul_comm, Nat.mul_add_div hn, Nat.div_eq_of_lt hj, Nat.add_zero]
  have hmod : (i * n + j) % n = j := by
    rw [Nat.mul_comm, Nat.mul_add_mod, Nat.mod_eq_of_lt hj]
  have hMl := hM i hi j hj
  simp only [List.getD_eq_getElem?_getD, List.getElem?_map, List.getElem?_range hlt,
    Option.map_some, Option.getD_some, if_neg one_ne_zero, hdiv, hmod, Nat.mod_eq_of_lt hMl]
  have hl : (arange lb (hb + 1)).length = ⌈hb + 1 - lb⌉.toNat := by simp [arange]
  rw [hl] at hMl
  unfold arange
  simp [hMl]

end c33

/-- **C33** is false: with the default bounds there are draws for which the matrix is not symmetric
and has a negative diagonal entry. -/
theorem C33_refuted : ∃ k b, multiGaussInit 2 [] [] (-100 : ℚ) 100 k = .ok b ∧
    entry b.cov 0 1 ≠ entry b.cov 1 0 ∧ entry b.cov 0 0 < 0 := by
  obtain ⟨k, b, h, hM⟩ := C33_every_matrix (n := 2) (-100 : ℚ) 100 (fun i j => i + 2 * j)
    (by norm_num) (by
      intro i hi j hj
      have : (arange (-100 : ℚ) (100 + 1)).length = 201 := by decide +kernel
      rw [this]; omega)
  refine ⟨k, b, h, ?_, ?_⟩
  · rw [hM 0 (by omega) 1 (by omega), hM 1 (by omega) 0 (by omega)]; norm_num
  · rw [hM 0 (by omega) 0 (by omega)]; norm_num

/-! ### EMNA -/

section emna
variable [FloorRing K]
variable {C : Type} [PyCost C] {env : Env C} {f : ℕ → List K → C} {ftol : C} {ρ : Rand (Draws K)}
variable {fl sq : K → K} {fac : List (List K) → List (List K)} {cfg : EMNACfg K}
variable {e : Eda (List K) (MultiGauss K) (Draws K)} {b : MultiGauss K}

/-- A valid configuration of a continuous algorithm with uniform initialization; `m` is the least
number of rows of a generation. -/
structure UniformValid (cpu : ℕ) (fl : K → K) (base : BaseCfg K (List K)) (lo up : Bound K) (m : ℕ) :
    Prop where
  dead : base.deadIter ≤ base.maxIter
  size : (m : ℤ) ≤ base.sizeGen
  pos : 1 ≤ m
  trunc : 1 ≤ selLen fl base.sizeGen base.alpha
  cpu : base.parallel = true → cpu ≤ m
  noise : base.noiseAttr = 0 ∨ (0 < base.noiseAttr ∧ selLen fl base.sizeGen base.alpha ≤ m)
  lower : lo.Usable base.nVars
  upper : up.Usable base.nVars
  data : ∀ d, base.initData = some d → NumGen base d ∧ m ≤ d.rows.length

theorem emna_noRaise {m cpu : ℕ} (hval : UniformValid cpu fl cfg.base cfg.lower cfg.upper m)
    (hmk : EMNA fl sq fac cfg = .ok (e, b)) (hn : 2 ≤ cfg.base.nVars) (hm : 2 ≤ m)
    (h2 : 2 ≤ selLen fl cfg.base.sizeGen cfg.base.alpha) (ρ : Rand (Draws K)) :
    NoRaise cpu e ρ m (NumGen cfg.base) (NumTrain fl cfg.base m)
      (fun b => b.Good cfg.base.nVars) := by
  obtain ⟨he, _, _⟩ := EMNA_ok hmk
  have hs0 : 0 ≤ cfg.base.sizeGen := by have := hval.size; omega
  refine mkEda_noRaise cpu he hval.pos hval.cpu hval.trunc hval.noise hval.data ?_ ?_ ?_
  · intro _
    obtain ⟨g, hg⟩ := (uniformInit_isOk (fl := fl) hval.lower hval.upper hs0).2 ρ.init
    obtain ⟨h1, h2, h3, h4⟩ := uniformInitSample_shape hg
    have := hval.size
    exact ⟨g, hg, ⟨h2, h3, by rw [h1]; simp, fun _ => h1⟩, by omega⟩
  · intro pm g el t hP h1 _ h3 h4 _
    exact MultiGauss.learn_good hP h1 hn (by omega)
  · intro pm t hP
    have := hval.size
    refine ⟨_, MultiGauss.sample_eq hP hs0 _, ⟨rfl, ?_, by simp, fun _ => rfl⟩, ?_⟩
    · intro r hr
      obtain ⟨i, _, rfl⟩ := List.mem_map.1 hr
      simp
    · simp; omega

/-- **C53** for `EMNA` with at least two variables and two selected individuals. -/
theorem C53_EMNA_never_raises [LawfulCost C] [UniformCost C] (hv : env.Valid) {m : ℕ}
    (hval : UniformValid env.cpu fl cfg.base cfg.lower cfg.upper m) (hn : 2 ≤ cfg.base.nVars)
    (hm : 2 ≤ m) (h2 : 2 ≤ selLen fl cfg.base.sizeGen cfg.base.alpha)
    (hnum : ∀ k r, IsNum (f k r)) :
    ∃ e b, EMNA fl sq fac cfg = .ok (e, b) ∧ ∃ res s, minimize env e f ftol b ρ = .ok (res, s) := by
  have hs0 : 0 ≤ cfg.base.sizeGen := by have := hval.size; omega
  obtain ⟨e, he⟩ := EMNA_isOk (fl := fl) (sq := sq) (fac := fac) hval.dead
    (fun d hd => (hval.data d hd).1.cols) (uniformInit_isOk (fl := fl) hval.lower hval.upper hs0).1
  exact ⟨e, _, he, minimize_progress hv (emna_noRaise hval he hn hm h2 ρ) hnum
    (MultiGauss.new_good _ _ _)⟩

/-- **C53** `EMNA` with one variable always raises when it should run at least two generations. -/
theorem C53_EMNA_one_variable (h : EMNA fl sq fac cfg = .ok (e, b)) (hn : cfg.base.nVars = 1)
    (hmax : 2 ≤ cfg.base.maxIter) (hv : env.Valid)
    (r : EdaResult (List K) C × St (List K) C (MultiGauss K)) : minimize env e f ftol b ρ ≠ .ok r := by
  intro hrun
  obtain ⟨res, s⟩ := r
  obtain ⟨he, _, rfl⟩ := EMNA_ok h
  obtain ⟨noisy, el, pm', h1, _, h3⟩ := mkEda_first_learn hv he hmax
    (fun _ g hg => (uniformInitSample_shape hg).2.1) hrun
  rw [C26_one_variable (by simp [MultiGauss.new, hn]) (by rw [h1, hn])] at h3
  simp at h3

/-- **C15** for `EMNA`. -/
theorem C15_EMNA_rerun (h : EMNA fl sq fac cfg = .ok (e, b)) {pm : MultiGauss K} (hp : Reused e b pm) :
    (minimize env e f ftol pm ρ).map (fun x => (x.1, x.2.log)) =
      (minimize env e f ftol b ρ).map (fun x => (x.1, x.2.log)) := by
  obtain ⟨he, _, rfl⟩ := EMNA_ok h
  have hm := mkEda_ok he
  refine rerun_eq_fresh (key := fun a => (a.n, a.lb, a.ub)) ?_ ?_ hp
  · intro a g el ω a' hu
    rw [hm.updatePm] at hu
    obtain ⟨h1, h2, h3⟩ := MultiGauss.learn_key hu
    rw [h1, h2, h3]
  · rintro ⟨n1, l1, u1, m1, s1⟩ ⟨n2, l2, u2, m2, s2⟩ g el ω hk
    simp only [Prod.mk.injEq] at hk
    obtain ⟨rfl, rfl, rfl⟩ := hk
    rw [hm.updatePm]
    rfl

/-- **C08** for `EMNA` without `init_data`. -/
theorem C08_EMNA [LawfulCost C] [UniformCost C] (hv : env.Valid) (h : EMNA fl sq fac cfg = .ok (e, b))
    (hd : cfg.base.initData = none) {res : EdaResult (List K) C} {s : St (List K) C (MultiGauss K)}
    (hrun : minimize env e f ftol b ρ = .ok (res, s)) : res.nFev = s.log.flatten.length := by
  obtain ⟨he, _, _⟩ := EMNA_ok h
  exact mkEda_nfev hv he hd (fun ω g hg => (uniformInitSample_shape hg).2.2.2)
    (fun pm ω g hg => (MultiGauss.sample_shape hg).2.2.2) hrun

end emna

/-- `EMNA` with 4 individuals of 2 variables and noise 1/2. -/
def Ex.emna : EMNACfg ℚ :=
  { base := { sizeGen := 4, maxIter := 3, deadIter := 2, nVars := 2, alpha := 1/2,
              eliteFactor := 1/4, parallel := true, initData := none, wNoise := some (1/2) }
    lower := .array [0, -1], upper := .scalar 1, lowerFactor := 1/2, upperFactor := 100 }

theorem Ex.emna_valid : UniformValid Ex.env.cpu id Ex.emna.base Ex.emna.lower Ex.emna.upper 4 where
  dead := by decide
  size := by decide
  pos := by decide
  trunc := by decide +kernel
  cpu := by decide
  noise := .inr (by decide +kernel)
  lower := rfl
  upper := trivial
  data := by intro d hd; simp [Ex.emna] at hd

example (ρ ρ' : Rand (Draws ℚ)) : ∃ e b, EMNA id id id Ex.emna = .ok (e, b) ∧
    ∃ res s, minimize Ex.env e Ex.cost 0 b ρ = .ok (res, s) ∧ res.nFev = s.log.flatten.length ∧
      (minimize Ex.env e Ex.cost 0 s.pm ρ').map (fun x => (x.1, x.2.log)) =
        (minimize Ex.env e Ex.cost 0 b ρ').map (fun x => (x.1, x.2.log)) := by
  obtain ⟨e, b, h, res, s, hr⟩ := C53_EMNA_never_raises (fl := id) (sq := id) (fac := id) (ρ := ρ)
    (ftol := (0 : ℚ)) (f := Ex.cost) Ex.env_valid Ex.emna_valid (by decide) (by decide)
    (by decide +kernel) (fun _ _ => field_isNum _)
  exact ⟨e, b, h, res, s, hr, C08_EMNA Ex.env_valid h rfl hr,
    C15_EMNA_rerun h (reused_after_run .fresh hr)⟩

end Verif
