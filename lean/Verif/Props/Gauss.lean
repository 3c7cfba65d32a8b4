/-
Univariate continuous models and algorithms: C24 (`UniGauss`), C25 (`AdaptUniGauss`), C30 (uniform
initializer), C32 (Gaussian initializer), C48 (bounds), and C08, C15, C53 for `UMDAc` and `PBIL`.
-/
import Verif.Lemmas.Gauss
import Verif.Lemmas.Float64
import Verif.Lemmas.Reuse
import Verif.Model.Examples
import Mathlib.Analysis.Real.Sqrt

set_option linter.unusedSectionVars false

namespace Verif

open Spec PyCost

variable {K : Type} [Field K] [LinearOrder K] [IsStrictOrderedRing K]

theorem real_isSqrt : IsSqrt Real.sqrt :=
  fun x hx => ⟨Real.sqrt_nonneg x, Real.mul_self_sqrt hx⟩

/-! ### C24 -/

/-- **C24** `UniGauss.learn` on a non-empty dataset with enough columns never raises and sets, for
every variable, the mean of its column and the standard deviation (the non-negative root of the
population variance) raised to `lower_bound` if smaller. -/
theorem C24_learn {sq : K → K} (hsq : IsSqrt sq) {b : UniGauss K} {g : Gen (List K)}
    (hwf : b.n = 0 → b.mean = [] ∧ b.std = []) (hc : b.n ≤ g.cols) (hne : g.rows ≠ []) :
    ∃ b', b.learn sq g = .ok b' ∧ b'.n = b.n ∧ b'.lb = b.lb ∧
      b'.mean.length = b.n ∧ b'.std.length = b.n ∧
      ∀ j < b.n, b'.mean[j]? = some (mean (col g.rows j)) ∧
        ∃ s, 0 ≤ s ∧ s * s = variance (col g.rows j) ∧ b'.std[j]? = some (max s b.lb) := by
  by_cases h0 : b.n = 0
  · refine ⟨b, by unfold UniGauss.learn; rw [if_pos h0], rfl, rfl, ?_, ?_, ?_⟩
    · rw [(hwf h0).1, h0]; rfl
    · rw [(hwf h0).2, h0]; rfl
    · intro j hj; omega
  · refine ⟨_, UniGauss.learn_eq h0 hc hne, rfl, rfl, by simp, by simp, ?_⟩
    intro j hj
    refine ⟨by simp [hj], sq (variance (col g.rows j)), ?_, ?_, by simp [hj]⟩
    · exact (hsq _ (variance_nonneg _)).1
    · exact (hsq _ (variance_nonneg _)).2

/-- **C24** the learned deviations are never negative and never below `lower_bound`, and sampling
the learned model never raises: `size` rows whose value `j` is `mean[j] + std[j] * z`, for the
standard normal draw `z`. -/
theorem C24_sample_after_learn {sq : K → K} (hsq : IsSqrt sq) {b b' : UniGauss K}
    {g : Gen (List K)} (hwf : b.n = 0 → b.mean = [] ∧ b.std = [])
    (h : b.learn sq g = .ok b') {size : ℤ} (hs : 0 ≤ size) (ω : Draws K) :
    (∀ s ∈ b'.std, 0 ≤ s ∧ b.lb ≤ s) ∧
    ∃ out, b'.sample size ω = .ok out ∧ out.cols = b.n ∧ (out.rows.length : ℤ) = size ∧
      Rect b.n out.rows ∧
      ∀ (i : ℕ) (r : List K), out.rows[i]? = some r → ∀ j < b.n, ∃ m s,
        b'.mean[j]? = some m ∧ b'.std[j]? = some s ∧ r[j]? = some (m + s * ω i j) := by
  have hgood : b'.Good b.n b.lb ∧ ∀ s ∈ b'.std, b.lb ≤ s := by
    by_cases h0 : b.n = 0
    · unfold UniGauss.learn at h
      rw [if_pos h0] at h
      obtain rfl := Except.ok.inj h
      obtain ⟨h1, h2⟩ := hwf h0
      refine ⟨⟨rfl, rfl, by rw [h1, h0]; rfl, by rw [h2, h0]; rfl, by rw [h2]; simp⟩, by rw [h2]; simp⟩
    · unfold UniGauss.learn at h
      rw [if_neg h0] at h
      split at h
      · simp at h
      rename_i hc
      split at h
      · simp at h
      simp only [Except.ok.injEq] at h
      subst h
      refine ⟨⟨rfl, rfl, by simp, by simp, ?_⟩, ?_⟩
      · intro s hs
        simp only [List.mem_map] at hs
        obtain ⟨j, _, rfl⟩ := hs
        exact (floorStd_colStd hsq _ _ _).1
      · intro s hs
        simp only [List.mem_map] at hs
        obtain ⟨j, _, rfl⟩ := hs
        exact (floorStd_colStd hsq _ _ _).2
  obtain ⟨hg, hlb⟩ := hgood
  refine ⟨fun s hs => ⟨hg.nonneg s hs, hlb s hs⟩, _, UniGauss.sample_eq hg hs ω, rfl, ?_, ?_, ?_⟩
  · simp; omega
  · intro r hr
    obtain ⟨i, _, rfl⟩ := List.mem_map.1 hr
    simp
  · intro i r hr j hj
    have hmj : j < b'.mean.length := by rw [hg.mean]; exact hj
    have hsj : j < b'.std.length := by rw [hg.std]; exact hj
    refine ⟨b'.mean[j], b'.std[j], by simp, by simp, ?_⟩
    simp only [List.getElem?_map] at hr
    obtain ⟨i', hi', rfl⟩ := Option.map_eq_some_iff.1 hr
    have : i' = i := by
      rw [List.getElem?_eq_some_iff] at hi'
      obtain ⟨h1, h2⟩ := hi'
      rw [← h2]; simp
    subst this
    simp [hj, List.getD_eq_getElem?_getD, hmj, hsj]

/-- Draws that make a Gaussian model produce the rows `target`. -/
def gaussDraws (b : UniGauss K) (target : List (List K)) : Draws K := fun i j =>
  ((target.getD i []).getD j 0 - b.mean.getD j 0) / b.std.getD j 0

/-- **C24** a model with positive deviations can produce every array of rows. -/
theorem C24_full_support {b : UniGauss K} {n : ℕ} (hn : b.n = n) (hm : b.mean.length = n)
    (hs : b.std.length = n) (hpos : ∀ s ∈ b.std, 0 < s) (target : List (List K))
    (ht : Rect n target) :
    ∃ ω, b.sample target.length ω = .ok { dt := .float, cols := n, rows := target } := by
  have hg : b.Good n b.lb := ⟨hn, rfl, hm, hs, fun s h => (hpos s h).le⟩
  refine ⟨gaussDraws b target, ?_⟩
  rw [UniGauss.sample_eq hg (by omega)]
  congr 2
  apply List.ext_getElem
  · simp
  intro i h1 h2
  simp only [List.getElem_map, List.getElem_range]
  have hr : target[i].length = n := ht _ (List.getElem_mem h2)
  apply List.ext_getElem
  · simp [hr]
  intro j h3 h4
  simp only [List.getElem_map, List.getElem_range, gaussDraws]
  have hsj : j < b.std.length := by rw [hs]; omega
  have hp : b.std.getD j 0 ≠ 0 := by
    rw [List.getD_eq_getElem?_getD, List.getElem?_eq_getElem hsj]
    exact (hpos _ (List.getElem_mem hsj)).ne'
  rw [mul_div_cancel₀ _ hp]
  have : target.getD i [] = target[i] := by simp [List.getD_eq_getElem?_getD, h2]
  rw [this]
  have : target[i].getD j 0 = target[i][j] := by simp [List.getD_eq_getElem?_getD, h4]
  rw [this]
  ring

/-- A concrete dataset: two values, deviation 1, raised to 3/2 by the lower bound. -/
example : ∃ b', (UniGauss.new 1 (3/2 : ℝ)).learn Real.sqrt ⟨.float, 1, [[1], [3]]⟩ = .ok b' ∧
    b'.mean[0]? = some 2 ∧ b'.std[0]? = some (3/2) ∧
    (∀ ω, ∃ out, b'.sample 2 ω = .ok out ∧ out.rows.length = 2) ∧
    ∃ ω, b'.sample 2 ω = .ok ⟨.float, 1, [[10], [-7]]⟩ := by
  obtain ⟨b', h, h1, h2, hml, hsl, h3⟩ := C24_learn (g := ⟨.float, 1, [[1], [3]]⟩) real_isSqrt
    (b := UniGauss.new 1 (3/2 : ℝ)) (by simp [UniGauss.new]) (le_refl _) (by simp)
  obtain ⟨hm, s, hs0, hs1, hs2⟩ := h3 0 (by decide)
  have hv : variance (col [[1], [(3 : ℝ)]] 0) = 1 := by
    simp [variance, mean, col]; norm_num
  have hs : s = 1 := by
    rw [hv] at hs1
    nlinarith
  have hstd : b'.std[0]? = some (3/2) := by
    rw [hs2, hs]; simp [UniGauss.new]; norm_num
  refine ⟨b', h, ?_, hstd, fun ω => ?_, ?_⟩
  · rw [hm]; simp [mean, col]; norm_num
  · obtain ⟨_, out, ho, _, hl, _⟩ := C24_sample_after_learn real_isSqrt
      (by simp [UniGauss.new]) h (size := 2) (by norm_num) ω
    exact ⟨out, ho, by omega⟩
  · refine C24_full_support (n := 1) h1 hml hsl ?_ [[10], [-7]] (by intro r hr; simp at hr; rcases hr with rfl | rfl <;> rfl)
    intro x hx
    obtain ⟨i, hi, rfl⟩ := List.getElem_of_mem hx
    have hi0 : i = 0 := by rw [hsl] at hi; have : i < 1 := hi; omega
    subst hi0
    rw [List.getElem?_eq_getElem hi] at hstd
    rw [Option.some.inj hstd]; norm_num

/-! ### C25 -/

/-- **C25** (partial: the code mixes in the mean of the *dataset*, not the mean of the previous
model as documented) `AdaptUniGauss.learn` on at least two rows: the new mean of variable `j` is
`(1 - alpha) * mean(column) + alpha * (first + second - last)`, the deviation is floored. -/
theorem C25_learn_partial {sq : K → K} (hsq : IsSqrt sq) {alpha : K} {b : UniGauss K}
    {g : Gen (List K)} (hwf : b.n = 0 → b.mean = [] ∧ b.std = []) (hc : b.n ≤ g.cols)
    (h2 : 2 ≤ g.rows.length) :
    ∃ b', b.learnAdapt sq alpha g = .ok b' ∧ b'.n = b.n ∧ b'.lb = b.lb ∧
      b'.mean.length = b.n ∧ b'.std.length = b.n ∧
      ∀ j < b.n,
        b'.mean[j]? = some ((1 - alpha) * mean (col g.rows j) +
          alpha * ((col g.rows j).getD 0 0 + (col g.rows j).getD 1 0 -
            (col g.rows j).getD (g.rows.length - 1) 0)) ∧
        ∃ s, 0 ≤ s ∧ s * s = variance (col g.rows j) ∧ b'.std[j]? = some (max s b.lb) := by
  by_cases h0 : b.n = 0
  · refine ⟨b, by unfold UniGauss.learnAdapt; rw [if_pos h0], rfl, rfl, ?_, ?_, ?_⟩
    · rw [(hwf h0).1, h0]; rfl
    · rw [(hwf h0).2, h0]; rfl
    · intro j hj; omega
  · unfold UniGauss.learnAdapt
    rw [if_neg h0, if_neg (by omega), List.getElem?_eq_getElem (by omega),
      List.getElem?_eq_getElem (by omega), List.getLast?_eq_getElem?,
      List.getElem?_eq_getElem (by omega)]
    simp only
    refine ⟨_, rfl, rfl, rfl, by simp, by simp, ?_⟩
    intro j hj
    constructor
    · have h1 : 0 < g.rows.length := by omega
      have h3 : 1 < g.rows.length := by omega
      have h4 : g.rows.length - 1 < g.rows.length := by omega
      simp [hj, col, h1, h3, h4, colMean_eq, List.getD_eq_getElem?_getD]
    · refine ⟨sq (variance (col g.rows j)), (hsq _ (variance_nonneg _)).1,
        (hsq _ (variance_nonneg _)).2, ?_⟩
      simp [hj, floorStd_eq, colStd_eq]

/-- **C25** fewer than two rows raise `IndexError`. -/
theorem C25_too_few_rows {sq : K → K} {alpha : K} {b : UniGauss K} {g : Gen (List K)}
    (h0 : 0 < b.n) (h2 : g.rows.length < 2) : b.learnAdapt sq alpha g = .error .indexError := by
  unfold UniGauss.learnAdapt
  rw [if_neg (by omega)]
  split
  · rfl
  · split
    · rename_i h _
      have := (List.getElem?_eq_some_iff.1 h).1
      omega
    · rfl

/-- **C25** is false as documented: the previous mean (here 100) does not enter the new one. -/
theorem C25_refuted : ∃ (b b' : UniGauss ℝ) (g : Gen (List ℝ)) (alpha : ℝ),
    0 < alpha ∧ alpha < 1 ∧ b.learnAdapt Real.sqrt alpha g = .ok b' ∧
    b.mean = [100] ∧ g.rows = [[1], [1]] ∧ b'.mean = [1] ∧
    b'.mean ≠ [(1 - alpha) * 100 + alpha * (1 + 1 - 1)] := by
  refine ⟨⟨1, 0, [100], [1]⟩, _, ⟨.float, 1, [[1], [1]]⟩, 1 / 2, by norm_num, by norm_num, rfl,
    rfl, rfl, ?_, ?_⟩
  · simp [colMean]
  · simp [colMean]; norm_num

/-- The previous model never matters for `AdaptUniGauss.learn` (only the number of variables and the
lower bound do). -/
theorem C25_previous_means_unused {sq : K → K} {alpha : K} {a b : UniGauss K} {g : Gen (List K)}
    (h0 : 0 < a.n) (hn : a.n = b.n) (hl : a.lb = b.lb) :
    a.learnAdapt sq alpha g = b.learnAdapt sq alpha g := by
  obtain ⟨n, lb, m1, s1⟩ := a
  obtain ⟨n', lb', m2, s2⟩ := b
  simp only at hn hl h0
  subst hn hl
  unfold UniGauss.learnAdapt
  simp only [if_neg h0.ne']

/-- A concrete dataset for C25: `(1 - 1/2) * 3 + 1/2 * (1 + 2 - 6) = 0`. -/
example : ∃ b', (UniGauss.new 1 (0 : ℝ)).learnAdapt Real.sqrt (1/2) ⟨.float, 1, [[1], [2], [6]]⟩ = .ok b' ∧
    b'.mean[0]? = some 0 := by
  obtain ⟨b', h, _, _, _, _, h3⟩ := C25_learn_partial (g := ⟨.float, 1, [[1], [2], [6]]⟩) real_isSqrt
    (b := UniGauss.new 1 (0 : ℝ)) (alpha := 1/2) (by simp [UniGauss.new]) (le_refl _) (by simp)
  refine ⟨b', h, ?_⟩
  rw [(h3 0 (by decide)).1]
  simp [mean, col]; norm_num

/-! ### C30 -/

/-- The bound that a user gives for variable `j`: a number for all of them or one per variable. -/
def boundOf : Bound K → ℕ → Option K
  | .none, _ => none
  | .scalar x, _ => some x
  | .list l, j => l[j]?
  | .array l, j => l[j]?

theorem Bound.at_eq {bd : Bound K} {n j : ℕ} {x : K} (hf : bd.fits n = true)
    (h : boundOf bd j = some x) : bd.at j = x := by
  have key : ∀ l : List K, (l.length = n ∨ l.length = 1) → l[j]? = some x →
      l.getD (if l.length = 1 then 0 else j) 0 = x := by
    intro l hl hx
    have hlt := (List.getElem?_eq_some_iff.1 hx).1
    have : (if l.length = 1 then 0 else j) = j := by split <;> omega
    rw [this, List.getD_eq_getElem?_getD, hx]; rfl
  cases bd with
  | none => simp [boundOf] at h
  | scalar y => simpa [boundOf, Bound.at] using h
  | list l => exact key l (by simpa [Bound.fits] using hf) h
  | array l => exact key l (by simpa [Bound.fits] using hf) h

/-- The shape of the sampled generation and its entries. -/
theorem UniformInit.entries {fl : K → K} {n : ℕ} {lo up : Bound K} {u : UniformInit K} {size : ℤ}
    {ω : Draws K} {g : Gen (List K)} (hu : UniformInit.new n lo up = .ok u)
    (hg : u.sample fl size ω = .ok g) :
    g.cols = n ∧ (g.rows.length : ℤ) = size ∧ Rect n g.rows ∧
    ∀ r ∈ g.rows, ∃ i, ∀ (j : ℕ) (l h : K), j < n → boundOf lo j = some l → boundOf up j = some h →
      r[j]? = some (fl (l + fl (fl (h - l) * ω i j))) := by
  obtain ⟨_, _, rfl⟩ := UniformInit.new_ok hu
  obtain ⟨h1, h2, h3, h4⟩ := UniformInit.sample_shape hg
  obtain ⟨_, _, _, f1, f2, rfl⟩ := UniformInit.sample_ok hg
  refine ⟨h2, h4, h3, ?_⟩
  intro r hr
  obtain ⟨i, _, rfl⟩ := List.mem_map.1 hr
  refine ⟨i, ?_⟩
  intro j l h hj hl hh
  simp [hj, Bound.at_eq f1 hl, Bound.at_eq f2 hh]

/-- **C30** (partial: arrays of a wrong length are not rejected at construction) the sampled
generation has `size` rows of `n` values, and value `j` lies in `[lb_j, ub_j)` (or equals the bound
if both coincide) for draws in `[0, 1)` and exact arithmetic. -/
theorem C30_within_bounds_partial {n : ℕ} {lo up : Bound K} {u : UniformInit K} {size : ℤ}
    {ω : Draws K} {g : Gen (List K)} (hu : UniformInit.new n lo up = .ok u) (hω : Unit01 ω)
    (hg : u.sample id size ω = .ok g) :
    g.cols = n ∧ (g.rows.length : ℤ) = size ∧ Rect n g.rows ∧
    ∀ r ∈ g.rows, ∀ (j : ℕ) (l h : K), j < n → boundOf lo j = some l → boundOf up j = some h → l ≤ h →
      ∃ v, r[j]? = some v ∧ l ≤ v ∧ v ≤ h ∧ (l < h → v < h) := by
  obtain ⟨h2, h4, h3, hent⟩ := UniformInit.entries hu hg
  refine ⟨h2, h4, h3, ?_⟩
  intro r hr j l h hj hl hh hlh
  obtain ⟨i, hi⟩ := hent r hr
  refine ⟨l + (h - l) * ω i j, hi j l h hj hl hh, ?_, ?_, ?_⟩
  · have := mul_nonneg (sub_nonneg.2 hlh) (hω i j).1
    linarith
  · have := mul_le_mul_of_nonneg_left (hω i j).2.le (sub_nonneg.2 hlh)
    linarith
  · intro hlt
    have := mul_lt_mul_of_pos_left (hω i j).2 (sub_pos.2 hlt)
    linarith

/-- **C30** (partial: as above) in double arithmetic: bounds that are doubles and draws that are
multiples of `2^-53` below 1 (as `np.random` produces) give values in `[lb_j, ub_j]`. -/
theorem C30_double_partial [FloorRing K] {n : ℕ} {lo up : Bound K} {u : UniformInit K} {size : ℤ}
    {ω : Draws K} {g : Gen (List K)} (hu : UniformInit.new n lo up = .ok u) (hω : Draw64 ω)
    (hg : u.sample fl64 size ω = .ok g) :
    g.cols = n ∧ (g.rows.length : ℤ) = size ∧ Rect n g.rows ∧
    ∀ r ∈ g.rows, ∀ (j : ℕ) (l h : K), j < n → boundOf lo j = some l → boundOf up j = some h →
      IsDouble l → IsDouble h → l ≤ h → ∃ v, r[j]? = some v ∧ l ≤ v ∧ v ≤ h := by
  obtain ⟨h2, h4, h3, hent⟩ := UniformInit.entries hu hg
  refine ⟨h2, h4, h3, ?_⟩
  intro r hr j l h hj hl hh dl dh hlh
  obtain ⟨i, hi⟩ := hent r hr
  obtain ⟨k, hk, hωk⟩ := hω i j
  refine ⟨_, hi j l h hj hl hh, fl64_uniform dl dh hlh ?_ ?_⟩
  · rw [hωk]; positivity
  · have : (k : K) + 1 ≤ 2 ^ 53 := by exact_mod_cast hk
    have e : (2 : K) ^ (-53 : ℤ) = 1 / 2 ^ 53 := by rw [zpow_neg, ← one_div]; norm_cast
    rw [hωk, e, le_sub_iff_add_le, ← add_div, div_le_one (by positivity)]
    exact this

/-- **C30** in double arithmetic the upper bound itself can be drawn, unlike in exact arithmetic. -/
theorem C30_double_attains : ∃ (u : UniformInit ℚ) (ω : Draws ℚ) (g : Gen (List ℚ)),
    UniformInit.new 1 (.scalar 1) (.scalar 2) = .ok u ∧ Draw64 ω ∧ u.sample fl64 1 ω = .ok g ∧
    g.rows = [[2]] := by
  refine ⟨_, fun _ _ => ((2 ^ 53 - 1 : ℕ) : ℚ) / 2 ^ 53, _, rfl, ?_, rfl, ?_⟩
  · intro i j
    exact ⟨2 ^ 53 - 1, by norm_num, rfl⟩
  · decide +kernel

/-- **C30** sampling succeeds for numbers, lists accepted by the constructor and arrays of length
`n`. -/
theorem C30_sample_total {fl : K → K} {n : ℕ} {lo up : Bound K} {u : UniformInit K} {size : ℤ} (ω : Draws K)
    (hu : UniformInit.new n lo up = .ok u) (hs : 0 ≤ size)
    (hl : lo ≠ .none) (hu' : up ≠ .none) (hla : ∀ l, lo = .array l → l.length = n)
    (hua : ∀ l, up = .array l → l.length = n) :
    ∃ g, u.sample fl size ω = .ok g := by
  obtain ⟨c1, c2, rfl⟩ := UniformInit.new_ok hu
  have key : ∀ bd : Bound K, bd.check n = true → bd ≠ .none → (∀ l, bd = .array l → l.length = n) →
      bd.isNone = false ∧ bd.fits n = true := by
    intro bd h1 h2 h3
    cases bd with
    | none => exact absurd rfl h2
    | scalar x => simp [Bound.isNone, Bound.fits]
    | list l => simp_all [Bound.isNone, Bound.fits, Bound.check]
    | array l => simp_all [Bound.isNone, Bound.fits]
  obtain ⟨k1, k2⟩ := key lo c1 hl hla
  obtain ⟨k3, k4⟩ := key up c2 hu' hua
  exact UniformInit.sample_isOk ω k1 k3 hs k2 k4

/-- **C30** lists of the wrong length are rejected at construction. -/
theorem C30_wrong_list_rejected {n : ℕ} {lo up : Bound K} {l : List K}
    (h : lo = .list l ∨ up = .list l) (hl : l.length ≠ n) :
    UniformInit.new n lo up = .error .assertion := by
  unfold UniformInit.new
  rcases h with rfl | rfl
  · rw [if_pos (by simpa [Bound.check] using hl)]
  · split
    · rfl
    · rw [if_pos (by simpa [Bound.check] using hl)]

/-- **C30** is false for arrays: every wrong length is accepted at construction; the error only
appears when sampling (unless the array has one element, which is then used for all variables). -/
theorem C30_wrong_array_accepted (n : ℕ) (l : List K) (x : K) :
    ∃ u : UniformInit K, UniformInit.new n (.array l) (.scalar x) = .ok u ∧
      ∀ (fl : K → K) (size : ℤ) (ω : Draws K), l.length ≠ n → l.length ≠ 1 →
        u.sample fl size ω = .error .valueError := by
  refine ⟨⟨n, .array l, .scalar x⟩, by simp [UniformInit.new, Bound.check], ?_⟩
  intro fl size ω h1 h2
  unfold UniformInit.sample
  rw [if_neg (by simp [Bound.isNone])]
  split
  · rfl
  · rw [if_pos (by simp [Bound.fits, h1, h2])]

theorem C30_refuted : ∃ (l : List ℚ) (u : UniformInit ℚ), l.length ≠ 3 ∧
    UniformInit.new 3 (.array l) (.scalar 1) = .ok u := by
  obtain ⟨u, hu, _⟩ := C30_wrong_array_accepted (K := ℚ) 3 [0, 0] 1
  exact ⟨[0, 0], u, by simp, hu⟩

example : ∃ u g, UniformInit.new 2 (.list [0, -1]) (.scalar (1 : ℚ)) = .ok u ∧
    u.sample id 2 (fun i j => if i = j then 0 else 1/2) = .ok g ∧
    g.rows = [[0, 0], [1/2, -1]] := by
  refine ⟨_, _, rfl, rfl, ?_⟩
  decide +kernel

/-! ### C32 -/

section c32
variable [FloorRing K]

theorem arange_mem {a b x : K} (h : x ∈ arange a b) : a ≤ x ∧ x < b := by
  unfold arange at h
  obtain ⟨i, hi, rfl⟩ := List.mem_map.1 h
  rw [List.mem_range] at hi
  refine ⟨by simp, ?_⟩
  have : (i : ℤ) < ⌈b - a⌉ := by omega
  have := Int.lt_ceil.1 this
  push_cast at this
  linarith

theorem arange_ne_nil {a b : K} : arange a b ≠ [] ↔ a < b := by
  constructor
  · intro h
    obtain ⟨x, xs, hx⟩ := List.exists_cons_of_ne_nil h
    obtain ⟨h1, h2⟩ := arange_mem (x := x) (a := a) (b := b) (by rw [hx]; simp)
    linarith
  · intro h h0
    unfold arange at h0
    simp only [List.map_eq_nil_iff, List.range_eq_nil] at h0
    have : 0 < ⌈b - a⌉ := Int.ceil_pos.2 (by linarith)
    omega

theorem choice_ok {l : List K} {n : ℕ} {k : ℕ → ℕ} {out : List K} (h : choice l n k = .ok out) :
    out.length = n ∧ ∀ x ∈ out, x ∈ l := by
  unfold choice at h
  split at h
  · simp at h
  rename_i hl
  simp only [Except.ok.injEq] at h
  subst h
  refine ⟨by simp, ?_⟩
  intro x hx
  obtain ⟨j, hj, rfl⟩ := List.mem_map.1 hx
  rw [List.mem_range] at hj
  have hne : l ≠ [] := by
    intro h0
    exact hl ⟨h0, by omega⟩
  have hpos := List.length_pos_iff.2 hne
  have := Nat.mod_lt (k j) hpos
  rw [List.getD_eq_getElem?_getD, List.getElem?_eq_getElem this]
  exact List.getElem_mem _

theorem choice_isOk {l : List K} {n : ℕ} {k : ℕ → ℕ} : (∃ out, choice l n k = .ok out) ↔
    l ≠ [] ∨ n = 0 := by
  unfold choice
  constructor
  · rintro ⟨out, h⟩
    split at h
    · simp at h
    · rename_i h0; tauto
  · intro h
    rw [if_neg (by tauto)]
    exact ⟨_, rfl⟩

/-- **C32** (exact condition) with default (empty) parameter vectors, construction succeeds iff the
range of means and the range `[|lb/4|, |hb/2|)` of deviations are non-empty. -/
theorem C32_constructible_iff {n : ℕ} (hn : 0 < n) (lb hb : K) (k : ℕ → ℕ → ℕ) :
    (∃ b, uniGaussInit n [] [] lb hb k = .ok b) ↔ lb < hb + 1 ∧ |lb / 4| < |hb / 2| := by
  unfold uniGaussInit
  simp only [List.length_nil, ne_eq, not_true_eq_false, if_false, if_true]
  constructor
  · rintro ⟨b, h⟩
    split at h
    · simp at h
    rename_i m hm
    split at h
    · simp at h
    rename_i s hs
    have h1 := (choice_isOk.1 ⟨m, hm⟩).resolve_right (by omega)
    have h2 := (choice_isOk.1 ⟨s, hs⟩).resolve_right (by omega)
    exact ⟨arange_ne_nil.1 h1, arange_ne_nil.1 h2⟩
  · rintro ⟨h1, h2⟩
    obtain ⟨m, hm⟩ := choice_isOk (n := n) (k := k 0) |>.2 (.inl (arange_ne_nil.2 h1))
    obtain ⟨s, hs⟩ := choice_isOk (n := n) (k := k 1) |>.2 (.inl (arange_ne_nil.2 h2))
    rw [hm]
    simp only
    rw [hs]
    exact ⟨_, rfl⟩

/-- **C32** (partial: only for bounds that can be constructed) the drawn means lie in `[lb, hb]`
(integer bounds), the deviations are non-negative and the initializer can always be sampled. -/
theorem C32_default_parameters_partial {n : ℕ} {lb hb : ℤ} {k : ℕ → ℕ → ℕ} {b : UniGauss K}
    (h : uniGaussInit n [] [] (lb : K) (hb : K) k = .ok b) :
    b.mean.length = n ∧ b.std.length = n ∧ (∀ m ∈ b.mean, (lb : K) ≤ m ∧ m ≤ (hb : K)) ∧
    (∀ s ∈ b.std, 0 ≤ s) ∧
    ∀ (size : ℤ) (ω : Draws K), 0 ≤ size → ∃ g, b.sample size ω = .ok g ∧ g.cols = n ∧
      (g.rows.length : ℤ) = size ∧ Rect n g.rows := by
  unfold uniGaussInit at h
  simp only [List.length_nil, ne_eq, not_true_eq_false, if_false, if_true] at h
  split at h
  · simp at h
  rename_i m hm
  split at h
  · simp at h
  rename_i s hs
  simp only [Except.ok.injEq] at h
  subst h
  obtain ⟨l1, m1⟩ := choice_ok hm
  obtain ⟨l2, m2⟩ := choice_ok hs
  have hpos : ∀ x ∈ s, 0 ≤ x := fun x hx => (abs_nonneg _).trans (arange_mem (m2 x hx)).1
  refine ⟨l1, l2, ?_, hpos, ?_⟩
  · intro x hx
    have hx' := m1 x hx
    refine ⟨(arange_mem hx').1, ?_⟩
    unfold arange at hx'
    obtain ⟨i, hi, rfl⟩ := List.mem_map.1 hx'
    rw [List.mem_range] at hi
    have hcast : (hb : K) + 1 - (lb : K) = ((hb + 1 - lb : ℤ) : K) := by push_cast; ring
    rw [hcast, Int.ceil_intCast] at hi
    have : lb + (i : ℤ) ≤ hb := by omega
    calc (lb : K) + (i : K) = ((lb + (i : ℤ) : ℤ) : K) := by push_cast; ring
      _ ≤ (hb : K) := by exact_mod_cast this
  · intro size ω hsz
    have hg : (UniGauss.mk n (lb : K) m s).Good n lb := ⟨rfl, rfl, l1, l2, hpos⟩
    refine ⟨_, UniGauss.sample_eq hg hsz ω, rfl, by simp; omega, ?_⟩
    intro r hr
    obtain ⟨i, _, rfl⟩ := List.mem_map.1 hr
    simp

end c32

/-- **C32** is false for some `lb < hb`: bounds `-400, 100` cannot be used. -/
theorem C32_refuted : ∀ k : ℕ → ℕ → ℕ, uniGaussInit 2 [] [] (-400 : ℚ) 100 k = .error .valueError := by
  intro k
  have h1 : arange (-400 : ℚ) (100 + 1) ≠ [] := arange_ne_nil.2 (by norm_num)
  have h2 : arange |(-400 : ℚ) / 4| |(100 : ℚ) / 2| = [] := by
    by_contra h
    have := arange_ne_nil.1 h
    rw [abs_of_neg (by norm_num), abs_of_pos (by norm_num)] at this
    norm_num at this
  unfold uniGaussInit
  simp [h2, h1, choice]

/-- The default bounds of `UniGaussGenInit`. -/
example : ∃ b, uniGaussInit 3 [] [] (-100 : ℚ) 100 (fun i j => i + j) = .ok b :=
  (C32_constructible_iff (by omega) _ _ _).2 ⟨by norm_num, by
    rw [abs_of_neg (by norm_num), abs_of_pos (by norm_num)]; norm_num⟩

end Verif
