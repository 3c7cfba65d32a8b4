/- Facts about `MultiGauss`, its initializer and `EMNA`. -/
import Verif.Lemmas.Gauss
import Verif.Model.MultiGauss

set_option linter.unusedSectionVars false

namespace Verif

open Spec

variable {K : Type} [Field K] [LinearOrder K] [IsStrictOrderedRing K]

theorem covEntry_eq (rows : List (List K)) (i j : ℕ) :
    covEntry rows i j = covariance (col rows i) (col rows j) := by
  unfold covEntry covariance
  rw [foldl_add_map, colMean_eq, colMean_eq]
  simp only [col, List.length_map, zero_add, List.zipWith_map]
  congr 2
  rw [List.zipWith_self]

theorem covariance_comm {rows : List (List K)} (i j : ℕ) :
    covariance (col rows i) (col rows j) = covariance (col rows j) (col rows i) := by
  rw [← covEntry_eq, ← covEntry_eq]
  unfold covEntry
  congr 2
  funext acc r
  ring

theorem clampEntry_eq {lb ub : K} (h : lb ≤ ub) (x : K) : clampEntry lb ub x = clip lb ub x := by
  unfold clampEntry clip
  simp only
  by_cases h1 : x < lb
  · rw [if_pos h1, if_neg (not_lt.2 h), max_eq_left (min_le_of_right_le h1.le)]
  · rw [if_neg h1]
    have h1 := not_lt.1 h1
    by_cases h2 : ub < x
    · rw [if_pos h2, min_eq_left h2.le, max_eq_right h]
    · rw [if_neg h2, min_eq_right (not_lt.1 h2), max_eq_right h1]

theorem entry_map {n : ℕ} {F : ℕ → ℕ → K} {i j : ℕ} (hi : i < n) (hj : j < n) :
    entry ((List.range n).map (fun i => (List.range n).map (fun j => F i j))) i j = F i j := by
  unfold entry
  simp [List.getD_eq_getElem?_getD, hi, hj]

/-- Means and a square matrix of the right size. -/
structure MultiGauss.Good (b : MultiGauss K) (m : ℕ) : Prop where
  n : b.n = m
  means : b.means.length = m
  rows : b.cov.length = m
  square : Rect m b.cov

theorem MultiGauss.new_good (n : ℕ) (lb ub : K) : (MultiGauss.new n lb ub).Good n := by
  refine ⟨rfl, by simp [MultiGauss.new], by simp [MultiGauss.new], ?_⟩
  intro r hr
  simp [MultiGauss.new] at hr
  simp [hr.2]

theorem MultiGauss.learn_eq {sq : K → K} {b : MultiGauss K} {g : Gen (List K)}
    (hc : b.n = g.cols) (h2 : 2 ≤ b.n) (hr : 2 ≤ g.rows.length) :
    b.learn sq g = .ok ⟨b.n, b.lb, b.ub, (List.range b.n).map (colMean g.rows),
      (List.range b.n).map (fun i => (List.range b.n).map (fun j =>
        if i = j then colStd sq g.rows i else clampEntry b.lb b.ub (covEntry g.rows i j)))⟩ := by
  unfold MultiGauss.learn
  rw [if_neg (by omega), if_neg (by omega), if_neg (by omega), ← hc]

theorem MultiGauss.learn_good {sq : K → K} {b : MultiGauss K} {g : Gen (List K)} {n : ℕ}
    (hb : b.Good n) (hc : g.cols = n) (h2 : 2 ≤ n) (hr : 2 ≤ g.rows.length) :
    ∃ b', b.learn sq g = .ok b' ∧ b'.Good n := by
  refine ⟨_, MultiGauss.learn_eq (by rw [hb.n, hc]) (by rw [hb.n]; exact h2) hr, ?_⟩
  refine ⟨hb.n, by simp [hb.n], by simp [hb.n], ?_⟩
  intro r hr
  simp only [List.mem_map] at hr
  obtain ⟨i, _, rfl⟩ := hr
  simp [hb.n]

theorem MultiGauss.learn_key {sq : K → K} {b b' : MultiGauss K} {g : Gen (List K)}
    (h : b.learn sq g = .ok b') : b'.n = b.n ∧ b'.lb = b.lb ∧ b'.ub = b.ub := by
  unfold MultiGauss.learn at h
  split at h
  · simp at h
  split at h
  · simp at h
  split at h
  · simp at h
  rw [← Except.ok.inj h]
  exact ⟨rfl, rfl, rfl⟩

theorem MultiGauss.sample_eq {fac : List (List K) → List (List K)} {b : MultiGauss K} {n : ℕ}
    (h : b.Good n) {size : ℤ} (hs : 0 ≤ size) (ω : Draws K) : b.sample fac size ω = .ok
      ⟨.float, n, (List.range size.toNat).map (fun i => (List.range n).map (fun j =>
        b.means.getD j 0 +
          ((List.range n).map (fun k => ω i k * entry (fac b.cov) k j)).sum))⟩ := by
  unfold MultiGauss.sample
  rw [if_neg (by omega), if_neg, if_neg (by rw [h.means, h.rows]; simp), h.means]
  simp only [List.all_eq_true, decide_eq_true_eq, h.rows]
  exact not_not.2 h.square

theorem MultiGauss.sample_shape {fac : List (List K) → List (List K)} {b : MultiGauss K} {size : ℤ}
    {ω : Draws K} {g : Gen (List K)} (h : b.sample fac size ω = .ok g) :
    g.dt = .float ∧ g.cols = b.means.length ∧ Rect b.means.length g.rows ∧
      (g.rows.length : ℤ) = size := by
  unfold MultiGauss.sample at h
  split at h
  · simp at h
  split at h
  · simp at h
  split at h
  · simp at h
  rw [← Except.ok.inj h]
  refine ⟨rfl, rfl, ?_, by simp; omega⟩
  intro r hr
  obtain ⟨i, _, rfl⟩ := List.mem_map.1 hr
  simp

section emna
variable [FloorRing K] {fl sq : K → K} {fac : List (List K) → List (List K)} {cfg : EMNACfg K}
variable {e : Eda (List K) (MultiGauss K) (Draws K)} {b : MultiGauss K}

theorem EMNA_ok (h : EMNA fl sq fac cfg = .ok (e, b)) :
    mkEda fl cfg.base (uniformInitSample fl cfg.base.nVars cfg.lower cfg.upper cfg.base.sizeGen)
      (fun b g _ _ => MultiGauss.learn sq b g)
      (fun b ω => MultiGauss.sample fac b cfg.base.sizeGen ω) = .ok e ∧
    (∃ u, UniformInit.new cfg.base.nVars cfg.lower cfg.upper = .ok u) ∧
    b = MultiGauss.new cfg.base.nVars cfg.lowerFactor cfg.upperFactor := by
  unfold EMNA at h
  split at h
  · simp at h
  rename_i e' he
  split at h
  · simp at h
  rename_i c hc
  simp only [Except.ok.injEq, Prod.mk.injEq] at h
  obtain ⟨rfl, rfl⟩ := h
  exact ⟨he, ⟨c, hc⟩, rfl⟩

theorem EMNA_isOk (hd : cfg.base.deadIter ≤ cfg.base.maxIter)
    (hc : ∀ d, cfg.base.initData = some d → d.cols = cfg.base.nVars)
    (hi : ∃ u, UniformInit.new cfg.base.nVars cfg.lower cfg.upper = .ok u) :
    ∃ e, EMNA fl sq fac cfg =
      .ok (e, MultiGauss.new cfg.base.nVars cfg.lowerFactor cfg.upperFactor) := by
  obtain ⟨e, he⟩ := (mkEda_isOk (fl := fl) (cfg := cfg.base)
    (init := uniformInitSample fl cfg.base.nVars cfg.lower cfg.upper cfg.base.sizeGen)
    (learn := fun b g _ _ => MultiGauss.learn sq b g)
    (sample := fun b ω => MultiGauss.sample fac b cfg.base.sizeGen ω)).2 ⟨hd, hc⟩
  obtain ⟨u, hu⟩ := hi
  refine ⟨e, ?_⟩
  unfold EMNA
  rw [he]
  simp only [hu]

end emna

theorem uniformInitSample_shape {n : ℕ} {lo up : Bound K} {size : ℤ} {ω : Draws K} {g : Gen (List K)}
    (h : uniformInitSample fl n lo up size ω = .ok g) :
    g.dt = .float ∧ g.cols = n ∧ Rect n g.rows ∧ (g.rows.length : ℤ) = size := by
  unfold uniformInitSample at h
  split at h
  · simp at h
  rename_i u hu
  obtain ⟨_, _, rfl⟩ := UniformInit.new_ok hu
  exact UniformInit.sample_shape h

/-- The bounds can be used for `n` variables. -/
def Bound.Usable (n : ℕ) : Bound K → Prop
  | .none => False
  | .scalar _ => True
  | .list l => l.length = n
  | .array l => l.length = n

theorem Bound.Usable.facts {n : ℕ} {bd : Bound K} (h : bd.Usable n) : bd.check n = true ∧
    bd.isNone = false ∧ bd.fits n = true := by
  cases bd with
  | none => exact h.elim
  | scalar x => simp [Bound.check, Bound.isNone, Bound.fits]
  | list l => simp only [Bound.Usable] at h; simp [Bound.check, Bound.isNone, Bound.fits, h]
  | array l => simp only [Bound.Usable] at h; simp [Bound.check, Bound.isNone, Bound.fits, h]

theorem uniformInit_isOk {n : ℕ} {lo up : Bound K} (hl : lo.Usable n) (hu : up.Usable n) {size : ℤ}
    (hs : 0 ≤ size) : (∃ u, UniformInit.new n lo up = .ok u) ∧
      ∀ ω, ∃ g, uniformInitSample fl n lo up size ω = .ok g := by
  obtain ⟨a1, a2, a3⟩ := hl.facts
  obtain ⟨b1, b2, b3⟩ := hu.facts
  have h : UniformInit.new n lo up = .ok ⟨n, lo, up⟩ := by simp [UniformInit.new, a1, b1]
  refine ⟨⟨_, h⟩, fun ω => ?_⟩
  unfold uniformInitSample
  rw [h]
  exact UniformInit.sample_isOk ω a2 b2 hs a3 b3

end Verif
