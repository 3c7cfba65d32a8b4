/-
Facts about `UniGauss`, `AdaptUniGauss`, the continuous initializers, `UMDAc` and `PBIL`.
-/
import Verif.Lemmas.Numeric
import Verif.Model.Gauss
import Mathlib.Algebra.Order.BigOperators.Group.List

set_option linter.unusedSectionVars false

namespace Verif

open Spec

variable {K : Type} [Field K] [LinearOrder K] [IsStrictOrderedRing K]

theorem foldl_add_map {α : Type} (l : List α) (g : α → K) (a : K) :
    l.foldl (fun acc r => acc + g r) a = a + (l.map g).sum := by
  induction l generalizing a with
  | nil => simp
  | cons x l ih => simp [ih, add_assoc]

theorem colMean_eq (rows : List (List K)) (j : ℕ) : colMean rows j = mean (col rows j) := by
  unfold colMean mean
  rw [foldl_add_map]
  simp [col]

theorem colStd_eq (sq : K → K) (rows : List (List K)) (j : ℕ) :
    colStd sq rows j = sq (variance (col rows j)) := by
  unfold colStd variance
  rw [foldl_add_map, colMean_eq]
  unfold mean
  simp only [col, List.map_map, List.length_map, zero_add]
  congr 3
  apply List.map_congr_left
  intro r _
  simp only [Function.comp]
  ring

theorem variance_nonneg (l : List K) : 0 ≤ variance l := by
  unfold variance mean
  apply div_nonneg
  · apply List.sum_nonneg
    intro x hx
    obtain ⟨y, _, rfl⟩ := List.mem_map.1 hx
    positivity
  · positivity

theorem floorStd_eq (lb s : K) : floorStd lb s = max s lb := by
  unfold floorStd
  split
  · rename_i h; exact (max_eq_right h.le).symm
  · rename_i h; exact (max_eq_left (not_lt.1 h)).symm

theorem floorStd_colStd {sq : K → K} (hsq : IsSqrt sq) (lb : K) (rows : List (List K)) (j : ℕ) :
    0 ≤ floorStd lb (colStd sq rows j) ∧ lb ≤ floorStd lb (colStd sq rows j) := by
  rw [floorStd_eq, colStd_eq]
  exact ⟨(hsq _ (variance_nonneg _)).1.trans (le_max_left _ _), le_max_right _ _⟩

/-! ### Sampling -/

/-- A model with one mean and one non-negative deviation per variable. -/
structure UniGauss.Good (b : UniGauss K) (m : ℕ) (low : K) : Prop where
  n : b.n = m
  lb : b.lb = low
  mean : b.mean.length = m
  std : b.std.length = m
  nonneg : ∀ s ∈ b.std, 0 ≤ s

theorem UniGauss.sample_eq {b : UniGauss K} {n : ℕ} {lb : K} (h : b.Good n lb) {size : ℤ}
    (hs : 0 ≤ size) (ω : Draws K) : b.sample size ω = .ok
      { dt := .float
        cols := n
        rows := (List.range size.toNat).map (fun i => (List.range n).map (fun j =>
          b.mean.getD j 0 + b.std.getD j 0 * ω i j)) } := by
  unfold UniGauss.sample
  rw [if_neg, if_neg (by omega), if_neg]
  · congr 2
    · exact h.n
    · apply List.map_congr_left
      intro i _
      rw [h.n]
      apply List.map_congr_left
      intro j hj
      rw [List.mem_range] at hj
      have : (if b.mean.length = 1 then 0 else j) = j := by rw [h.mean]; split <;> omega
      rw [this]
      have : (if b.std.length = 1 then 0 else j) = j := by rw [h.std]; split <;> omega
      rw [this]
  · rw [h.n]; simp [h.mean, h.std]
  · simp only [List.any_eq_true, decide_eq_true_eq, not_exists, not_and, not_lt]
    exact h.nonneg

theorem UniGauss.sample_shape {b : UniGauss K} {size : ℤ} {ω : Draws K} {g : Gen (List K)}
    (h : b.sample size ω = .ok g) : g.dt = .float ∧ g.cols = b.n ∧ Rect b.n g.rows ∧
      (g.rows.length : ℤ) = size := by
  unfold UniGauss.sample at h
  split at h
  · simp at h
  split at h
  · simp at h
  split at h
  · simp at h
  simp only [Except.ok.injEq] at h
  subst h
  refine ⟨rfl, rfl, ?_, by simp; omega⟩
  intro r hr
  obtain ⟨i, _, rfl⟩ := List.mem_map.1 hr
  simp

theorem UniformInit.new_ok {n : ℕ} {lo up : Bound K} {u : UniformInit K}
    (h : UniformInit.new n lo up = .ok u) : lo.check n = true ∧ up.check n = true ∧
      u = { n := n, lower := lo, upper := up } := by
  unfold UniformInit.new at h
  split at h
  · simp at h
  rename_i h1
  split at h
  · simp at h
  rename_i h2
  simp only [Except.ok.injEq] at h
  exact ⟨by simpa using h1, by simpa using h2, h.symm⟩

theorem UniformInit.sample_ok {fl : K → K} {u : UniformInit K} {size : ℤ} {ω : Draws K} {g : Gen (List K)}
    (h : u.sample fl size ω = .ok g) : u.lower.isNone = false ∧ u.upper.isNone = false ∧ 0 ≤ size ∧
      u.lower.fits u.n = true ∧ u.upper.fits u.n = true ∧
      g = { dt := .float
            cols := u.n
            rows := (List.range size.toNat).map (fun i => (List.range u.n).map (fun j =>
              fl (u.lower.at j + fl (fl (u.upper.at j - u.lower.at j) * ω i j)))) } := by
  unfold UniformInit.sample at h
  split at h
  · split at h <;> simp at h
  rename_i h1
  split at h
  · simp at h
  rename_i h2
  split at h
  · simp at h
  rename_i h3
  simp only [Except.ok.injEq] at h
  push Not at h1 h2 h3
  refine ⟨by simpa using h1.1, by simpa using h1.2, h2, h3.1, h3.2, h.symm⟩

theorem UniformInit.sample_isOk {fl : K → K} {u : UniformInit K} {size : ℤ} (ω : Draws K)
    (h1 : u.lower.isNone = false) (h2 : u.upper.isNone = false) (hs : 0 ≤ size)
    (h3 : u.lower.fits u.n = true) (h4 : u.upper.fits u.n = true) :
    ∃ g, u.sample fl size ω = .ok g := by
  unfold UniformInit.sample
  rw [if_neg (by simp [h1, h2]), if_neg (by omega), if_neg (by simp [h3, h4])]
  exact ⟨_, rfl⟩

theorem UniformInit.sample_shape {fl : K → K} {u : UniformInit K} {size : ℤ} {ω : Draws K}
    {g : Gen (List K)} (h : u.sample fl size ω = .ok g) : g.dt = .float ∧ g.cols = u.n ∧ Rect u.n g.rows ∧
      (g.rows.length : ℤ) = size := by
  obtain ⟨_, _, hs, _, _, rfl⟩ := UniformInit.sample_ok h
  refine ⟨rfl, rfl, ?_, by simp; omega⟩
  intro r hr
  obtain ⟨i, _, rfl⟩ := List.mem_map.1 hr
  simp

/-! ### Learning -/

theorem UniGauss.learn_eq {sq : K → K} {b : UniGauss K} {g : Gen (List K)} (h0 : b.n ≠ 0)
    (hc : b.n ≤ g.cols) (hne : g.rows ≠ []) : b.learn sq g = .ok
      { b with
        mean := (List.range b.n).map (fun j => Spec.mean (col g.rows j))
        std := (List.range b.n).map (fun j => max (sq (variance (col g.rows j))) b.lb) } := by
  unfold UniGauss.learn
  rw [if_neg h0, if_neg (by omega), if_neg hne]
  simp only [colStd_eq, floorStd_eq]
  congr 2
  exact List.map_congr_left (fun j _ => colMean_eq _ _)

theorem UniGauss.learn_good {sq : K → K} (hsq : IsSqrt sq) {b : UniGauss K} {g : Gen (List K)}
    {n : ℕ} {lb : K} (hb : b.Good n lb) (hc : g.cols = n) (hne : g.rows ≠ []) :
    ∃ b', b.learn sq g = .ok b' ∧ b'.Good n lb ∧ (0 < n → ∀ s ∈ b'.std, lb ≤ s) := by
  by_cases h0 : b.n = 0
  · refine ⟨b, by unfold UniGauss.learn; rw [if_pos h0], hb, ?_⟩
    intro hn
    have := hb.n
    omega
  · refine ⟨_, UniGauss.learn_eq h0 (by rw [hb.n, hc]) hne, ⟨hb.n, hb.lb, ?_, ?_, ?_⟩, ?_⟩
    · simp [hb.n]
    · simp [hb.n]
    · intro s hs
      simp only [List.mem_map] at hs
      obtain ⟨j, _, rfl⟩ := hs
      exact (hsq _ (variance_nonneg _)).1.trans (le_max_left _ _)
    · intro _ s hs
      simp only [List.mem_map] at hs
      obtain ⟨j, _, rfl⟩ := hs
      rw [← hb.lb]; exact le_max_right _ _

theorem UniGauss.learnAdapt_good {sq : K → K} (hsq : IsSqrt sq) {alpha : K} {b : UniGauss K}
    {g : Gen (List K)} {n : ℕ} {lb : K} (hb : b.Good n lb) (hc : g.cols = n)
    (h2 : 2 ≤ g.rows.length) : ∃ b', b.learnAdapt sq alpha g = .ok b' ∧ b'.Good n lb ∧
      (0 < n → ∀ s ∈ b'.std, lb ≤ s) := by
  by_cases h0 : b.n = 0
  · refine ⟨b, by unfold UniGauss.learnAdapt; rw [if_pos h0], hb, ?_⟩
    intro hn
    have := hb.n
    omega
  · unfold UniGauss.learnAdapt
    rw [if_neg h0, if_neg (by rw [hb.n, hc]; omega)]
    rw [List.getElem?_eq_getElem (by omega), List.getElem?_eq_getElem (by omega)]
    rw [List.getLast?_eq_getElem?, List.getElem?_eq_getElem (by omega)]
    simp only
    refine ⟨_, rfl, ⟨hb.n, hb.lb, ?_, ?_, ?_⟩, ?_⟩
    · simp [hb.n]
    · simp [hb.n]
    · intro s hs
      simp only [List.mem_map] at hs
      obtain ⟨j, _, rfl⟩ := hs
      exact (floorStd_colStd hsq _ _ _).1
    · intro _ s hs
      simp only [List.mem_map] at hs
      obtain ⟨j, _, rfl⟩ := hs
      rw [← hb.lb]; exact (floorStd_colStd hsq _ _ _).2

/-- Updates keep the number of variables and the lower bound. -/
theorem UniGauss.learn_key {sq : K → K} {b b' : UniGauss K} {g : Gen (List K)}
    (h : b.learn sq g = .ok b') : b'.n = b.n ∧ b'.lb = b.lb := by
  unfold UniGauss.learn at h
  split at h
  · simp only [Except.ok.injEq] at h; subst h; exact ⟨rfl, rfl⟩
  split at h
  · simp at h
  split at h
  · simp at h
  simp only [Except.ok.injEq] at h; subst h; exact ⟨rfl, rfl⟩

theorem UniGauss.learnAdapt_key {sq : K → K} {alpha : K} {b b' : UniGauss K} {g : Gen (List K)}
    (h : b.learnAdapt sq alpha g = .ok b') : b'.n = b.n ∧ b'.lb = b.lb := by
  unfold UniGauss.learnAdapt at h
  split at h
  · simp only [Except.ok.injEq] at h; subst h; exact ⟨rfl, rfl⟩
  split at h
  · simp at h
  split at h
  · simp only [Except.ok.injEq] at h; subst h; exact ⟨rfl, rfl⟩
  · simp at h

/-! ### The constructors -/

section cont
variable [FloorRing K] {fl sq : K → K} {base : BaseCfg K (List K)} {cfg : UMDAcCfg K}
variable {e : Eda (List K) (UniGauss K) (Draws K)} {b : UniGauss K}
variable {learn : UniGauss K → Gen (List K) → Gen (List K) → Draws K → Except PyErr (UniGauss K)}

theorem mkCont_ok (h : mkCont fl base cfg learn = .ok (e, b)) :
    mkEda fl base (contInitSample fl cfg) learn (fun b ω => b.sample cfg.base.sizeGen ω) = .ok e ∧
    (∃ c, contInit cfg = .ok c) ∧ b = UniGauss.new cfg.base.nVars cfg.lowerFactor := by
  unfold mkCont at h
  split at h
  · simp at h
  rename_i e' he
  split at h
  · simp at h
  rename_i c hc
  simp only [Except.ok.injEq, Prod.mk.injEq] at h
  obtain ⟨rfl, rfl⟩ := h
  exact ⟨he, ⟨c, hc⟩, rfl⟩

theorem mkCont_isOk (hd : base.deadIter ≤ base.maxIter)
    (hc : ∀ d, base.initData = some d → d.cols = base.nVars) (hi : ∃ c, contInit cfg = .ok c) :
    ∃ e, mkCont fl base cfg learn = .ok (e, UniGauss.new cfg.base.nVars cfg.lowerFactor) := by
  obtain ⟨e, he⟩ := (mkEda_isOk (fl := fl) (cfg := base) (init := contInitSample fl cfg)
    (learn := learn) (sample := fun b ω => b.sample cfg.base.sizeGen ω)).2 ⟨hd, hc⟩
  obtain ⟨c, hc⟩ := hi
  refine ⟨e, ?_⟩
  unfold mkCont
  rw [he]
  simp only [hc]

theorem contInit_shape {ω : Draws K} {g : Gen (List K)} (h : contInitSample fl cfg ω = .ok g) :
    g.dt = .float ∧ g.cols = cfg.base.nVars ∧ Rect cfg.base.nVars g.rows ∧
      (g.rows.length : ℤ) = cfg.base.sizeGen := by
  unfold contInitSample at h
  split at h
  · simp at h
  rename_i c hc
  unfold contInit at hc
  split at hc
  · rename_i m s hv
    split at hc
    · split at hc
      · simp at hc
      rename_i b hb
      simp only [Except.ok.injEq] at hc
      subst hc
      have hn : b.n = cfg.base.nVars := by
        unfold uniGaussInit at hb
        split at hb
        · simp at hb
        split at hb
        · split at hb
          · simp at hb
          split at hb
          · simp at hb
          · simp only [Except.ok.injEq] at hb; subst hb; rfl
        · simp only [Except.ok.injEq] at hb; subst hb; rfl
      rw [← hn]
      exact UniGauss.sample_shape h
    · simp at hc
  · simp at hc
  · split at hc
    · simp at hc
    rename_i u hu
    simp only [Except.ok.injEq] at hc
    subst hc
    obtain ⟨_, _, rfl⟩ := UniformInit.new_ok hu
    exact UniformInit.sample_shape h

theorem UniGauss.new_good (n : ℕ) (lb : K) : (UniGauss.new n lb).Good n lb :=
  ⟨rfl, rfl, by simp [UniGauss.new], by simp [UniGauss.new], by
    intro s hs
    simp only [UniGauss.new] at hs
    rw [List.eq_of_mem_replicate hs]⟩

end cont

end Verif
