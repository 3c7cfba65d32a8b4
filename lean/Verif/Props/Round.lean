/-
C81: the univariate Gaussian models in IEEE double precision: how far what is learned and sampled is from the
exact statistics, and that the runs are still safe.
-/
import Verif.Lemmas.Round
import Verif.Props.Continuous

set_option linter.unusedSectionVars false

namespace Verif

open PyCost Spec

section
variable {K C : Type} [Field K] [LinearOrder K] [IsStrictOrderedRing K] [FloorRing K] [PyCost C]

local notation "u" => (2 : K) ^ (-53 : ℤ)
local notation "η" => (2 : K) ^ (-1075 : ℤ)

/-! ### Learning -/

/-- **C81** The mean that `UnivGaussian.learn` computes in double precision: off by at most `2^-53` per rounding
of the mean absolute value, whatever the order of the additions. -/
theorem C81_mean {order : ℕ → SumTree} (ho : SumsAll order) {rows : List (List K)} (hd : AllDouble rows)
    (hne : rows ≠ []) (j : ℕ) :
    |colMeanR fl64 order rows j - mean (col rows j)| ≤
      ((1 + u) ^ ((order rows.length).depth + 1) - 1) * mean ((col rows j).map abs) + η :=
  colMeanR_error ho hd hne

/-- What a learned deviation is in double precision: for a number `V` close to the variance, the rounded root of
`V`, or the floor. -/
def Spec.RoundedStd (sq : K → K) (d : ℕ) (var shift lb s : K) : Prop :=
  ∃ V r, 0 ≤ V ∧ (1 - u) ^ (d + 4) * (var + shift ^ 2) - 2 * η ≤ V ∧
    V ≤ (1 + u) ^ (d + 4) * (var + shift ^ 2) + ((1 + u) ^ (d + 1) + 1) * η ∧
    |r - sq V| ≤ u * sq V + η ∧ s = max r lb

theorem colStdR_rounded {sq : K → K} (hsq : IsSqrt sq) {order : ℕ → SumTree} (ho : SumsAll order)
    {rows : List (List K)} (hd : AllDouble rows) (hne : rows ≠ []) (lb : K) (j : ℕ) :
    RoundedStd sq (order rows.length).depth (variance (col rows j))
      (colMeanR fl64 order rows j - mean (col rows j)) lb (floorStd lb (colStdR fl64 sq order rows j)) := by
  obtain ⟨h0, h1, h2⟩ := colVarR_bounds (j := j) ho hd hne
  refine ⟨colVarR fl64 order rows j, colStdR fl64 sq order rows j, h0, h1, h2, ?_, floorStd_eq _ _⟩
  have := fl64_error (sq (colVarR fl64 order rows j))
  rwa [abs_of_nonneg (hsq _ h0).1] at this

theorem colStdR_nonneg {sq : K → K} (hsq : IsSqrt sq) {order : ℕ → SumTree} {rows : List (List K)} (j : ℕ) :
    0 ≤ colStdR fl64 sq order rows j := by
  have hV : 0 ≤ colVarR fl64 order rows j := by
    have h1 := (order rows.length).eval_nonneg (x := fun i =>
      fl64 (fl64 ((rows.getD i []).getD j 0 - colMeanR fl64 order rows j) *
        fl64 ((rows.getD i []).getD j 0 - colMeanR fl64 order rows j)))
      (fun i _ => by have := fl64_mono (mul_self_nonneg (fl64 ((rows.getD i []).getD j 0 -
                        colMeanR fl64 order rows j))); rwa [fl64_zero] at this)
    have := fl64_mono (div_nonneg h1 (Nat.cast_nonneg (α := K) rows.length))
    rwa [fl64_zero] at this
  have := fl64_mono (hsq _ hV).1
  rwa [fl64_zero] at this

theorem learnR_eq {sq : K → K} {order : ℕ → SumTree} {b : UniGauss K} {g : Gen (List K)} (h0 : b.n ≠ 0)
    (hc : b.n ≤ g.cols) (hne : g.rows ≠ []) : b.learnR fl64 sq order g = .ok { b with
      mean := (List.range b.n).map (colMeanR fl64 order g.rows)
      std := (List.range b.n).map (fun j => floorStd b.lb (colStdR fl64 sq order g.rows j)) } := by
  unfold UniGauss.learnR
  rw [if_neg h0, if_neg (by omega), if_neg hne]

/-- **C81** `UnivGaussian.learn` in double precision, for any order of the additions: it never raises, the means
and deviations are close to the exact ones, and no deviation is below `lower_bound`. -/
theorem C81_learn {sq : K → K} (hsq : IsSqrt sq) {order : ℕ → SumTree} (ho : SumsAll order) {b : UniGauss K}
    {g : Gen (List K)} {n : ℕ} {lb : K} (hbn : b.n = n) (hlb : b.lb = lb) (hn : 0 < n) (hc : n ≤ g.cols)
    (hne : g.rows ≠ []) (hd : AllDouble g.rows) :
    ∃ b', b.learnR fl64 sq order g = .ok b' ∧ b'.Good n lb ∧
      ∀ j < n,
        |b'.mean.getD j 0 - mean (col g.rows j)| ≤
          ((1 + u) ^ ((order g.rows.length).depth + 1) - 1) * mean ((col g.rows j).map abs) + η ∧
        RoundedStd sq (order g.rows.length).depth (variance (col g.rows j))
          (b'.mean.getD j 0 - mean (col g.rows j)) lb (b'.std.getD j 0) ∧
        lb ≤ b'.std.getD j 0 ∧ IsDouble (b'.mean.getD j 0) := by
  have h0 : b.n ≠ 0 := by rw [hbn]; omega
  refine ⟨_, learnR_eq h0 (by rw [hbn]; exact hc) hne, ⟨hbn, hlb, by simp [hbn], by simp [hbn], ?_⟩, ?_⟩
  · intro s hs
    obtain ⟨j, _, rfl⟩ := List.mem_map.1 hs
    rw [floorStd_eq]
    exact (colStdR_nonneg hsq j).trans (le_max_left _ _)
  · intro j hj
    have e1 : ((List.range b.n).map (colMeanR fl64 order g.rows)).getD j 0 = colMeanR fl64 order g.rows j := by
      rw [List.getD_eq_getElem?_getD, List.getElem?_map, List.getElem?_range (by rw [hbn]; exact hj)]; rfl
    have e2 : ((List.range b.n).map (fun j => floorStd b.lb (colStdR fl64 sq order g.rows j))).getD j 0 =
        floorStd lb (colStdR fl64 sq order g.rows j) := by
      rw [List.getD_eq_getElem?_getD, List.getElem?_map, List.getElem?_range (by rw [hbn]; exact hj), hlb]; rfl
    simp only [e1, e2]
    refine ⟨C81_mean ho hd hne j, colStdR_rounded hsq ho hd hne lb j, ?_, fl64_double _⟩
    rw [floorStd_eq]; exact le_max_right _ _

theorem learnAdaptR_eq {sq : K → K} {order : ℕ → SumTree} {b : UniGauss K} {g : Gen (List K)} {alpha : K}
    {r0 r1 rl : List K} (h0 : b.n ≠ 0) (hc : b.n ≤ g.cols) (e0 : g.rows[0]? = some r0)
    (e1 : g.rows[1]? = some r1) (el : g.rows.getLast? = some rl) :
    b.learnAdaptR fl64 sq order alpha g = .ok { b with
      mean := (List.range b.n).map (fun j => fl64 (fl64 (fl64 (1 - alpha) * colMeanR fl64 order g.rows j) +
        fl64 (alpha * fl64 (fl64 (r0.getD j 0 + r1.getD j 0) - rl.getD j 0))))
      std := (List.range b.n).map (fun j => floorStd b.lb (colStdR fl64 sq order g.rows j)) } := by
  unfold UniGauss.learnAdaptR
  rw [if_neg h0, if_neg (by omega), e0, e1, el]

/-- **C81** With numpy's pairwise summation, of up to `112 * 2^20 + 16` rows: the mean is off by less than
`2^-47` of the mean absolute value (plus half the smallest double), the variance that the deviation is the root
of by less than that relative to the mean squared distance to the learned mean. -/
theorem C81_numpy {rows : List (List K)} (hd : AllDouble rows) (hne : rows ≠ [])
    (hlen : rows.length ≤ 112 * 2 ^ 20 + 16) (j : ℕ) :
    |colMeanR fl64 npOrder rows j - mean (col rows j)| ≤
      2 ^ (-47 : ℤ) * mean ((col rows j).map abs) + η ∧
    |colVarR fl64 npOrder rows j -
        (variance (col rows j) + (colMeanR fl64 npOrder rows j - mean (col rows j)) ^ 2)| ≤
      2 ^ (-47 : ℤ) * (variance (col rows j) + (colMeanR fl64 npOrder rows j - mean (col rows j)) ^ 2) +
        3 * η := by
  have hdep : (npOrder rows.length).depth ≤ 45 := npPairwise_depth 20 _ _ _ hlen
  have p1 : (1 + u) ^ ((npOrder rows.length).depth + 1) - 1 ≤ 2 ^ (-47 : ℤ) := by
    have h1 : (1 + u) ^ ((npOrder rows.length).depth + 1) ≤ (1 + u) ^ 46 :=
      pow_le_pow_right₀ (by have := two_zpow_pos (K := K) (-53); linarith) (by omega)
    have h2 : (1 + u) ^ 46 - 1 ≤ 2 ^ (-47 : ℤ) := by norm_num
    linarith
  have p2 : (1 + u) ^ ((npOrder rows.length).depth + 4) - 1 ≤ 2 ^ (-47 : ℤ) := by
    have h1 : (1 + u) ^ ((npOrder rows.length).depth + 4) ≤ (1 + u) ^ 49 :=
      pow_le_pow_right₀ (by have := two_zpow_pos (K := K) (-53); linarith) (by omega)
    have h2 : (1 + u) ^ 49 - 1 ≤ 2 ^ (-47 : ℤ) := by norm_num
    linarith
  have p3 : 1 - (1 - u) ^ ((npOrder rows.length).depth + 4) ≤ 2 ^ (-47 : ℤ) := by
    have h1 : (1 - u) ^ 49 ≤ (1 - u) ^ ((npOrder rows.length).depth + 4) :=
      pow_le_pow_of_le_one (by norm_num) (by norm_num) (by omega)
    have h2 : 1 - (1 - u) ^ 49 ≤ 2 ^ (-47 : ℤ) := by norm_num
    linarith
  have hη := two_zpow_pos (K := K) (-1075)
  constructor
  · refine (C81_mean npOrder_sumsAll hd hne j).trans ?_
    have hA : 0 ≤ mean ((col rows j).map abs) := by
      unfold mean
      refine div_nonneg (List.sum_nonneg ?_) (Nat.cast_nonneg _)
      intro x hx
      obtain ⟨y, _, rfl⟩ := List.mem_map.1 hx
      exact abs_nonneg y
    have := mul_le_mul_of_nonneg_right p1 hA
    linarith
  · obtain ⟨_, h1, h2⟩ := colVarR_bounds (j := j) npOrder_sumsAll hd hne
    set W := variance (col rows j) + (colMeanR fl64 npOrder rows j - mean (col rows j)) ^ 2
    have hW : 0 ≤ W := add_nonneg (variance_nonneg _) (sq_nonneg _)
    have q2 := mul_le_mul_of_nonneg_right p2 hW
    have q3 := mul_le_mul_of_nonneg_right p3 hW
    have q1 : (1 + u) ^ ((npOrder rows.length).depth + 1) * η ≤ 2 * η :=
      mul_le_mul_of_nonneg_right (by
        have : (2 : K) ^ (-47 : ℤ) ≤ 1 := by norm_num
        linarith) hη.le
    rw [abs_le]
    constructor <;> linarith

/-- **C81** `AdaptUnivGaussian.learn` (the model of `PBIL`) in double precision never raises for at least two
rows, its means are close to the exact ones, and no deviation is below `lower_bound`. -/
theorem C81_learn_adaptive {sq : K → K} (hsq : IsSqrt sq) {order : ℕ → SumTree} (ho : SumsAll order)
    {b : UniGauss K} {g : Gen (List K)} {n : ℕ} {lb alpha : K} (hbn : b.n = n) (hlb : b.lb = lb) (hn : 0 < n)
    (hc : n ≤ g.cols) (h2 : 2 ≤ g.rows.length) (hd : AllDouble g.rows) (ha : IsDouble alpha) :
    ∃ b' r0 r1 rl, b.learnAdaptR fl64 sq order alpha g = .ok b' ∧ b'.Good n lb ∧
      g.rows[0]? = some r0 ∧ g.rows[1]? = some r1 ∧ g.rows.getLast? = some rl ∧
      ∀ j < n,
        |b'.mean.getD j 0 - ((1 - alpha) * mean (col g.rows j) +
            alpha * (r0.getD j 0 + r1.getD j 0 - rl.getD j 0))| ≤
          ((1 + u) ^ ((order g.rows.length).depth + 4) - 1) * (|1 - alpha| * mean ((col g.rows j).map abs) +
            |alpha| * (|r0.getD j 0| + |r1.getD j 0| + |rl.getD j 0|)) +
            (1 + u) * ((1 + u) ^ 2 * |1 - alpha| + 2) * η ∧
        RoundedStd sq (order g.rows.length).depth (variance (col g.rows j))
          (colMeanR fl64 order g.rows j - mean (col g.rows j)) lb (b'.std.getD j 0) ∧
        lb ≤ b'.std.getD j 0 ∧ IsDouble (b'.mean.getD j 0) := by
  have h0 : b.n ≠ 0 := by rw [hbn]; omega
  have hne : g.rows ≠ [] := by intro h; rw [h] at h2; simp at h2
  obtain ⟨r0, e0⟩ : ∃ r, g.rows[0]? = some r := ⟨_, List.getElem?_eq_getElem (by omega)⟩
  obtain ⟨r1, e1⟩ : ∃ r, g.rows[1]? = some r := ⟨_, List.getElem?_eq_getElem (by omega)⟩
  obtain ⟨rl, el⟩ : ∃ r, g.rows.getLast? = some r := ⟨_, List.getLast?_eq_some_getLast hne⟩
  have hdat : ∀ r ∈ g.rows, ∀ j, IsDouble (r.getD j 0) := by
    intro r hr j
    rw [List.getD_eq_getElem?_getD]
    cases hj : r[j]? with
    | none => exact isDouble_zero
    | some x => exact hd r hr x (List.mem_of_getElem? hj)
  have hL := learnAdaptR_eq (sq := sq) (order := order) (alpha := alpha) h0 (by rw [hbn]; exact hc) e0 e1 el
  refine ⟨_, r0, r1, rl, hL, ?_, e0, e1, el, ?_⟩
  · refine ⟨hbn, hlb, by simp [hbn], by simp [hbn], ?_⟩
    intro s hs
    obtain ⟨j, _, rfl⟩ := List.mem_map.1 hs
    rw [floorStd_eq]
    exact (colStdR_nonneg hsq j).trans (le_max_left _ _)
  · intro j hj
    have e1' : ((List.range b.n).map (fun j => fl64 (fl64 (fl64 (1 - alpha) * colMeanR fl64 order g.rows j) +
          fl64 (alpha * fl64 (fl64 (r0.getD j 0 + r1.getD j 0) - rl.getD j 0))))).getD j 0 =
        fl64 (fl64 (fl64 (1 - alpha) * colMeanR fl64 order g.rows j) +
          fl64 (alpha * fl64 (fl64 (r0.getD j 0 + r1.getD j 0) - rl.getD j 0))) := by
      rw [List.getD_eq_getElem?_getD, List.getElem?_map, List.getElem?_range (by rw [hbn]; exact hj)]; rfl
    have e2 : ((List.range b.n).map (fun j => floorStd b.lb (colStdR fl64 sq order g.rows j))).getD j 0 =
        floorStd lb (colStdR fl64 sq order g.rows j) := by
      rw [List.getD_eq_getElem?_getD, List.getElem?_map, List.getElem?_range (by rw [hbn]; exact hj), hlb]; rfl
    simp only [e1', e2]
    refine ⟨?_, colStdR_rounded hsq ho hd hne lb j, ?_, fl64_double _⟩
    · have hm : Near (colMeanR fl64 order g.rows j) (mean (col g.rows j)) (mean ((col g.rows j).map abs))
          ((order g.rows.length).depth + 1) η := by
        refine ⟨?_, C81_mean ho hd hne j⟩
        unfold mean
        rw [abs_div, List.length_map, abs_of_nonneg (Nat.cast_nonneg (α := K) _)]
        exact div_le_div_of_nonneg_right (abs_sum_le _) (Nat.cast_nonneg _)
      have := (adaptMean_near hm ha (hdat r0 (List.mem_of_getElem? e0) j) (hdat r1 (List.mem_of_getElem? e1) j)
        (hdat rl (List.mem_of_getLast? el) j)).err
      rw [max_eq_left (by omega)] at this
      refine this.trans (le_of_eq ?_)
      ring
    · rw [floorStd_eq]; exact le_max_right _ _

/-! ### Sampling -/

theorem sampleR_eq {b : UniGauss K} {n : ℕ} {lb : K} (h : b.Good n lb) {size : ℤ} (hs : 0 ≤ size) (ω : Draws K) :
    b.sampleR fl64 size ω = .ok
      { dt := .float
        cols := n
        rows := (List.range size.toNat).map (fun i => (List.range n).map (fun j =>
          fl64 (b.mean.getD j 0 + fl64 (b.std.getD j 0 * ω i j)))) } := by
  unfold UniGauss.sampleR
  rw [if_neg, if_neg (by omega), if_neg]
  · congr 2
    · exact h.n
    · refine List.map_congr_left fun i _ => ?_
      rw [h.n]
      refine List.map_congr_left fun j hj => ?_
      have hj := List.mem_range.1 hj
      have a1 : (if b.mean.length = 1 then 0 else j) = j := by
        rw [h.mean]; split <;> omega
      have a2 : (if b.std.length = 1 then 0 else j) = j := by
        rw [h.std]; split <;> omega
      rw [a1, a2]
  · rw [not_not]; exact ⟨.inl (by rw [h.mean, h.n]), .inl (by rw [h.std, h.n])⟩
  · simp only [List.any_eq_true, decide_eq_true_eq, not_exists, not_and, not_lt]
    exact h.nonneg

/-- **C81** `UnivGaussian.sample` in double precision: every value is the double obtained from `mean + std * z`
by two roundings. -/
theorem C81_sample {b : UniGauss K} {n : ℕ} {lb : K} (h : b.Good n lb) (hm : ∀ x ∈ b.mean, IsDouble x) {size : ℤ}
    (hs : 0 ≤ size) (ω : Draws K) :
    ∃ g, b.sampleR fl64 size ω = .ok g ∧ g.dt = .float ∧ g.cols = n ∧ Rect n g.rows ∧
      (g.rows.length : ℤ) = size ∧ AllDouble g.rows ∧
      ∀ (i : ℕ) (r : List K), g.rows[i]? = some r → ∀ j < n,
        |r.getD j 0 - (b.mean.getD j 0 + b.std.getD j 0 * ω i j)| ≤
          u * |b.mean.getD j 0 + b.std.getD j 0 * ω i j| + (1 + u) * (u * |b.std.getD j 0 * ω i j| + η) := by
  have heq := sampleR_eq h hs ω
  refine ⟨_, heq, rfl, rfl, ?_, ?_, ?_, ?_⟩
  · intro r hr
    obtain ⟨i, _, rfl⟩ := List.mem_map.1 hr
    simp
  · simp; omega
  · intro r hr x hx
    obtain ⟨i, _, rfl⟩ := List.mem_map.1 hr
    obtain ⟨j, _, rfl⟩ := List.mem_map.1 hx
    exact fl64_double _
  · intro i r hi j hj
    rw [List.getElem?_map] at hi
    obtain ⟨i', hi', rfl⟩ := Option.map_eq_some_iff.1 hi
    have : i' = i := by
      rw [List.getElem?_eq_some_iff] at hi'
      obtain ⟨hl, he⟩ := hi'
      simpa using he.symm
    subst this
    rw [List.getD_eq_getElem?_getD, List.getElem?_map, List.getElem?_range hj, Option.map_some, Option.getD_some]
    set m := b.mean.getD j 0
    set p := b.std.getD j 0 * ω i' j
    have hmd : IsDouble m := by
      show IsDouble (b.mean.getD j 0)
      rw [List.getD_eq_getElem?_getD]
      cases hj' : b.mean[j]? with
      | none => exact isDouble_zero
      | some x => exact hm x (List.mem_of_getElem? hj')
    have h1 := fl64_error p
    have h2 := fl64_error_grid ((onGrid_double hmd).add (onGrid_double (fl64_double p)))
    have h3 : |m + fl64 p| ≤ |m + p| + |fl64 p - p| := by
      have := abs_add_le (m + p) (fl64 p - p)
      rwa [show m + p + (fl64 p - p) = m + fl64 p by ring] at this
    have h4 := abs_sub_le (fl64 (m + fl64 p)) (m + fl64 p) (m + p)
    have h5 : |m + fl64 p - (m + p)| = |fl64 p - p| := by rw [show m + fl64 p - (m + p) = fl64 p - p by ring]
    have h6 := mul_le_mul_of_nonneg_left h3 (two_zpow_pos (K := K) (-53)).le
    have h7 := mul_le_mul_of_nonneg_left h1 (show (0 : K) ≤ 1 + u by linarith [two_zpow_pos (K := K) (-53)])
    rw [h5] at h4
    linarith

/-! ### Whole runs -/

variable {cfg : UMDAcCfg K} {sq : K → K} {order : ℕ → SumTree} {env : Env C} {f : ℕ → List K → C} {ftol : C}
  {e : Eda (List K) (UniGauss K) (Draws K)} {b : UniGauss K} {ρ : Rand (Draws K)}

theorem contInitSampleR_shape {ω : Draws K} {g : Gen (List K)} (h : contInitSample fl64 cfg ω = .ok g) :
    ∃ g', contInitSampleR fl64 cfg ω = .ok g' ∧ g'.dt = .float ∧ g'.cols = cfg.base.nVars ∧
      Rect cfg.base.nVars g'.rows ∧ (g'.rows.length : ℤ) = cfg.base.sizeGen := by
  obtain ⟨s1, s2, s3, s4⟩ := contInit_shape h
  unfold contInitSample at h
  unfold contInitSampleR
  cases hc : contInit cfg with
  | error err => rw [hc] at h; simp at h
  | ok c =>
    rw [hc] at h
    cases c with
    | uniform w => exact ⟨g, h, s1, s2, s3, s4⟩
    | gauss b =>
      have h : b.sample cfg.base.sizeGen ω = .ok g := h
      show ∃ g', b.sampleR fl64 cfg.base.sizeGen ω = .ok g' ∧ _
      obtain ⟨t1, t2, t3, t4⟩ := UniGauss.sample_shape h
      unfold UniGauss.sample at h
      unfold UniGauss.sampleR
      split at h
      · simp at h
      split at h
      · simp at h
      split at h
      · simp at h
      rename_i k1 k2 k3
      rw [if_neg k1, if_neg k2, if_neg k3]
      refine ⟨_, rfl, rfl, by rw [← s2, t2], ?_, by simp; omega⟩
      intro r hr
      obtain ⟨i, _, rfl⟩ := List.mem_map.1 hr
      simp [← s2, t2]

theorem contInitSampleR_double {ω : Draws K} {g : Gen (List K)} (h : contInitSampleR fl64 cfg ω = .ok g) :
    AllDouble g.rows := by
  unfold contInitSampleR at h
  split at h
  · simp at h
  · unfold UniGauss.sampleR at h
    split_ifs at h
    all_goals
      obtain rfl := Except.ok.inj h
      intro r hr x hx
      obtain ⟨i, _, rfl⟩ := List.mem_map.1 hr
      obtain ⟨j, _, rfl⟩ := List.mem_map.1 hx
      exact fl64_double _
  · unfold UniformInit.sample at h
    split_ifs at h
    obtain rfl := Except.ok.inj h
    intro r hr x hx
    obtain ⟨i, _, rfl⟩ := List.mem_map.1 hr
    obtain ⟨j, _, rfl⟩ := List.mem_map.1 hx
    exact fl64_double _

theorem sampleR_double {b : UniGauss K} {size : ℤ} {ω : Draws K} {g : Gen (List K)}
    (h : b.sampleR fl64 size ω = .ok g) : AllDouble g.rows := by
  unfold UniGauss.sampleR at h
  split_ifs at h
  all_goals
    obtain rfl := Except.ok.inj h
    intro r hr x hx
    obtain ⟨i, _, rfl⟩ := List.mem_map.1 hr
    obtain ⟨j, _, rfl⟩ := List.mem_map.1 hx
    exact fl64_double _

section mk
variable {base : BaseCfg K (List K)} {learn : UniGauss K → Gen (List K) → Except PyErr (UniGauss K)}

theorem mkContR_ok (h : mkContR fl64 base cfg learn = .ok (e, b)) :
    mkEda fl64 base (contInitSampleR fl64 cfg) (fun b g _ _ => learn b (g.roundR fl64))
      (fun b ω => b.sampleR fl64 cfg.base.sizeGen ω) = .ok e ∧
    (∃ c, contInit cfg = .ok c) ∧ b = UniGauss.new cfg.base.nVars cfg.lowerFactor := by
  unfold mkContR at h
  split at h
  · simp at h
  rename_i e' he
  split at h
  · simp at h
  rename_i c hc
  simp only [Except.ok.injEq, Prod.mk.injEq] at h
  obtain ⟨rfl, rfl⟩ := h
  exact ⟨he, ⟨c, hc⟩, rfl⟩

theorem mkContR_isOk (hd : base.deadIter ≤ base.maxIter)
    (hc : ∀ d, base.initData = some d → d.cols = base.nVars) (hi : ∃ c, contInit cfg = .ok c) :
    ∃ e, mkContR fl64 base cfg learn = .ok (e, UniGauss.new cfg.base.nVars cfg.lowerFactor) := by
  obtain ⟨e, he⟩ := (mkEda_isOk (fl := fl64) (cfg := base) (init := contInitSampleR fl64 cfg)
    (learn := fun b g _ _ => learn b (g.roundR fl64))
    (sample := fun b ω => b.sampleR fl64 cfg.base.sizeGen ω)).2 ⟨hd, hc⟩
  obtain ⟨c, hc⟩ := hi
  refine ⟨e, ?_⟩
  unfold mkContR
  rw [he]
  simp only [hc]

theorem contR_noRaise (hnv : base.nVars = cfg.base.nVars) {m : ℕ} {cpu : ℕ}
    (hval : ContValid cpu base cfg m (selLen fl64 base.sizeGen base.alpha))
    (hmk : mkContR fl64 base cfg learn = .ok (e, b))
    (hl : ∀ (b : UniGauss K) (g : Gen (List K)), b.Good cfg.base.nVars cfg.lowerFactor →
      g.cols = cfg.base.nVars → g.rows ≠ [] →
      min (selLen fl64 base.sizeGen base.alpha).toNat m ≤ g.rows.length →
      ∃ b', learn b (g.roundR fl64) = .ok b' ∧ b'.Good cfg.base.nVars cfg.lowerFactor)
    (ρ : Rand (Draws K)) :
    NoRaise cpu e ρ m (NumGen base) (NumTrain fl64 base m)
      (fun b => b.Good cfg.base.nVars cfg.lowerFactor) := by
  obtain ⟨he, hc, rfl⟩ := mkContR_ok hmk
  have hs0 : 0 ≤ cfg.base.sizeGen := by have := hval.size; omega
  refine mkEda_noRaise cpu he hval.pos hval.cpu hval.trunc hval.noise hval.data ?_ ?_ ?_
  · intro hd
    obtain ⟨g, hg⟩ := (initUsable_sample (fl := fl64) (hval.init hd) hs0).2 ρ.init
    obtain ⟨g', hg', h1, h2, h3, h4⟩ := contInitSampleR_shape hg
    have := hval.size
    exact ⟨g', hg', ⟨by rw [h2, hnv], by rw [hnv]; exact h3, by rw [h1]; simp, fun _ => h1⟩, by omega⟩
  · intro pm g el t hP h1 _ h3 h4 _
    exact hl pm g hP (by rw [h1, hnv]) h3 h4
  · intro pm t hP
    have := hval.size
    refine ⟨_, sampleR_eq hP hs0 _, ⟨hnv.symm, ?_, by simp, fun _ => rfl⟩, ?_⟩
    · intro r hr
      obtain ⟨i, _, rfl⟩ := List.mem_map.1 hr
      simp [hnv]
    · simp; omega

end mk

theorem roundR_double (g : Gen (List K)) : AllDouble (g.roundR fl64).rows := by
  intro r hr x hx
  obtain ⟨r', _, rfl⟩ := List.mem_map.1 hr
  obtain ⟨y, _, rfl⟩ := List.mem_map.1 hx
  exact fl64_double _

theorem learnR_good (hsq : IsSqrt sq) {b : UniGauss K} {g : Gen (List K)} {n : ℕ} {lb : K} (hb : b.Good n lb)
    (hc : g.cols = n) (hne : g.rows ≠ []) :
    ∃ b', b.learnR fl64 sq order (g.roundR fl64) = .ok b' ∧ b'.Good n lb := by
  by_cases h0 : b.n = 0
  · exact ⟨b, by unfold UniGauss.learnR; rw [if_pos h0], hb⟩
  · refine ⟨_, learnR_eq h0 (by rw [hb.n]; exact hc.ge) (by simpa [Gen.roundR] using hne), hb.n, hb.lb,
      by simp [hb.n], by simp [hb.n], ?_⟩
    intro s hs
    obtain ⟨j, _, rfl⟩ := List.mem_map.1 hs
    rw [floorStd_eq]
    exact (colStdR_nonneg hsq j).trans (le_max_left _ _)

theorem learnAdaptR_good (hsq : IsSqrt sq) {b : UniGauss K} {g : Gen (List K)} {n : ℕ} {lb alpha : K}
    (hb : b.Good n lb) (hc : g.cols = n) (h2 : 2 ≤ g.rows.length) :
    ∃ b', b.learnAdaptR fl64 sq order alpha (g.roundR fl64) = .ok b' ∧ b'.Good n lb := by
  by_cases h0 : b.n = 0
  · exact ⟨b, by unfold UniGauss.learnAdaptR; rw [if_pos h0], hb⟩
  · have h2' : 2 ≤ (g.roundR fl64).rows.length := by simpa [Gen.roundR] using h2
    have hne : (g.roundR fl64).rows ≠ [] := by intro h; rw [h] at h2'; simp at h2'
    refine ⟨_, learnAdaptR_eq h0 (by rw [hb.n]; exact hc.ge) (List.getElem?_eq_getElem (by omega))
      (List.getElem?_eq_getElem (by omega)) (List.getLast?_eq_some_getLast hne), hb.n, hb.lb,
      by simp [hb.n], by simp [hb.n], ?_⟩
    intro s hs
    obtain ⟨j, _, rfl⟩ := List.mem_map.1 hs
    rw [floorStd_eq]
    exact (colStdR_nonneg hsq j).trans (le_max_left _ _)

/-- **C81** Runs of `UMDAc` in double precision: every valid configuration can be constructed and every run
returns a result. -/
theorem C81_UMDAc_never_raises [LawfulCost C] [UniformCost C] (hv : env.Valid) (hsq : IsSqrt sq)
    {m : ℕ} (hval : ContValid env.cpu cfg.base cfg m (selLen fl64 cfg.base.sizeGen cfg.base.alpha))
    (hnum : ∀ k r, IsNum (f k r)) :
    ∃ e b, UMDAcR fl64 sq order cfg = .ok (e, b) ∧ ∃ res s, minimize env e f ftol b ρ = .ok (res, s) := by
  obtain ⟨e, he⟩ := mkContR_isOk (cfg := cfg) (learn := UniGauss.learnR fl64 sq order)
    hval.dead (fun d hd => (hval.data d hd).1.cols) hval.build
  refine ⟨e, _, he, ?_⟩
  exact minimize_progress hv (contR_noRaise rfl hval he (fun b g hb hc hne _ => learnR_good hsq hb hc hne) ρ)
    hnum (UniGauss.new_good _ _)

/-- **C81** Runs of `PBIL` in double precision, with at least two individuals per generation. -/
theorem C81_PBIL_never_raises [LawfulCost C] [UniformCost C] (hv : env.Valid) (hsq : IsSqrt sq)
    {m : ℕ} (hm : 2 ≤ m) (hfl : 2 ≤ selLen fl64 cfg.base.sizeGen (1 : K))
    (hval : ContValid env.cpu { cfg.base with alpha := 1 } cfg m (selLen fl64 cfg.base.sizeGen (1 : K)))
    (hnum : ∀ k r, IsNum (f k r)) :
    ∃ e b, PBILR fl64 sq order cfg = .ok (e, b) ∧ ∃ res s, minimize env e f ftol b ρ = .ok (res, s) := by
  obtain ⟨e, he⟩ := mkContR_isOk (cfg := cfg) (base := { cfg.base with alpha := 1 })
    (learn := UniGauss.learnAdaptR fl64 sq order cfg.base.alpha)
    hval.dead (fun d hd => (hval.data d hd).1.cols) hval.build
  refine ⟨e, _, he, ?_⟩
  refine minimize_progress hv (contR_noRaise (base := { cfg.base with alpha := 1 }) rfl hval he
    (fun b g hb hc hne hlen => ?_) ρ) hnum (UniGauss.new_good _ _)
  have h2 : 2 ≤ g.rows.length := by simp only at hlen; omega
  exact learnAdaptR_good hsq hb hc h2

/-- Every individual of a state is a list of doubles, and so are the means of the model. -/
structure Spec.DoubleState (s : St (List K) C (UniGauss K)) : Prop where
  gen : AllDouble s.gen.rows
  elite : AllDouble s.elite.rows
  log : ∀ p ∈ s.log.flatten, ∀ x ∈ p.1, IsDouble x
  mean : ∀ x ∈ s.pm.mean, IsDouble x

theorem contR_rowInv {base : BaseCfg K (List K)} {learn : UniGauss K → Gen (List K) → Except PyErr (UniGauss K)}
    (hmk : mkContR fl64 base cfg learn = .ok (e, b)) (hdata : ∀ d, base.initData = some d → AllDouble d.rows)
    (hl : ∀ b g b', (∀ x ∈ b.mean, IsDouble x) → learn b g = .ok b' → ∀ x ∈ b'.mean, IsDouble x) :
    RowInv e ρ (fun r => ∀ x ∈ r, IsDouble x) (fun _ => True) (fun b => ∀ x ∈ b.mean, IsDouble x) (fun _ => True) := by
  obtain ⟨he, _, _⟩ := mkContR_ok hmk
  have hm := mkEda_ok he
  refine ⟨?_, fun _ _ _ _ _ _ => trivial, ?_, ?_⟩
  · intro g hg
    cases hd : base.initData with
    | none => rw [hm.initNone hd] at hg; exact contInitSampleR_double hg
    | some d => rw [(hm.initSome d hd).2] at hg; obtain rfl := Except.ok.inj hg; exact hdata d hd
  · intro pm g el t pm' hI _ _ hu
    rw [hm.updatePm] at hu
    exact ⟨hl _ _ _ hI hu, trivial⟩
  · intro pm t g _ _ hs
    rw [hm.sample] at hs
    exact sampleR_double hs

theorem learnR_double {b b' : UniGauss K} {g : Gen (List K)} (hb : ∀ x ∈ b.mean, IsDouble x)
    (h : b.learnR fl64 sq order g = .ok b') : ∀ x ∈ b'.mean, IsDouble x := by
  unfold UniGauss.learnR at h
  split_ifs at h
  · obtain rfl := Except.ok.inj h; exact hb
  · obtain rfl := Except.ok.inj h
    intro x hx
    obtain ⟨j, _, rfl⟩ := List.mem_map.1 hx
    exact fl64_double _

theorem learnAdaptR_double {b b' : UniGauss K} {g : Gen (List K)} {alpha : K} (hb : ∀ x ∈ b.mean, IsDouble x)
    (h : b.learnAdaptR fl64 sq order alpha g = .ok b') : ∀ x ∈ b'.mean, IsDouble x := by
  unfold UniGauss.learnAdaptR at h
  split_ifs at h
  · obtain rfl := Except.ok.inj h; exact hb
  · split at h
    · obtain rfl := Except.ok.inj h
      intro x hx
      obtain ⟨j, _, rfl⟩ := List.mem_map.1 hx
      exact fl64_double _
    · simp at h

/-- **C81** Everything a run of `UMDAc` handles is a double: in every iteration the individuals, the elite, the
evaluated points and the means. -/
theorem C81_UMDAc_doubles (hv : env.Valid) (h : UMDAcR fl64 sq order cfg = .ok (e, b))
    (hdata : ∀ d, cfg.base.initData = some d → AllDouble d.rows) {t : ℕ} {s : St (List K) C (UniGauss K)}
    (hs : Visited env e f ftol b ρ t s) : DoubleState s := by
  obtain ⟨_, _, rfl⟩ := mkContR_ok h
  obtain ⟨h1, h2, h3, h4⟩ := allRows_visited hv
    (contR_rowInv (ρ := ρ) h hdata fun _ _ _ hb hl => learnR_double hb hl)
    (by intro x hx; obtain rfl : x = 0 := by simpa [UniGauss.new] using (List.mem_replicate.1 hx).2
        exact isDouble_zero) hs
  exact ⟨h1, h2, h3, h4⟩

/-- **C81** The same for `PBIL`. -/
theorem C81_PBIL_doubles (hv : env.Valid) (h : PBILR fl64 sq order cfg = .ok (e, b))
    (hdata : ∀ d, cfg.base.initData = some d → AllDouble d.rows) {t : ℕ} {s : St (List K) C (UniGauss K)}
    (hs : Visited env e f ftol b ρ t s) : DoubleState s := by
  obtain ⟨_, _, rfl⟩ := mkContR_ok h
  obtain ⟨h1, h2, h3, h4⟩ := allRows_visited hv
    (contR_rowInv (ρ := ρ) h hdata fun _ _ _ hb hl => learnAdaptR_double hb hl)
    (by intro x hx; obtain rfl : x = 0 := by simpa [UniGauss.new] using (List.mem_replicate.1 hx).2
        exact isDouble_zero) hs
  exact ⟨h1, h2, h3, h4⟩

/-- **C81** Every iteration of a run of `UMDAc` in double precision: the model is learned from doubles (the
selected individuals, if there is no noise), its means and deviations are close to the exact ones of that data,
no deviation is below `lower_factor`, and every new individual is close to `mean + std * z`. -/
theorem C81_UMDAc_iteration (hv : env.Valid) (hsq : IsSqrt sq) (ho : SumsAll order)
    (h : UMDAcR fl64 sq order cfg = .ok (e, b)) (hn : 0 < cfg.base.nVars)
    (hdata : ∀ d, cfg.base.initData = some d → AllDouble d.rows) {t : ℕ} {s s' : St (List K) C (UniGauss K)}
    {brk : Bool} {nz : Gen (List K) → Except PyErr (Gen (List K))} (hvis : Visited env e f ftol b ρ t s)
    (hnz : e.mkNoise ρ.noise = .ok nz) (hst : step env e f ftol ρ nz t s = .ok (s', brk)) :
    ∃ (s1 : St (List K) C (UniGauss K)) (noisy g : Gen (List K)), truncation env e s = .ok s1 ∧
      nz s1.gen = .ok noisy ∧ g = noisy.roundR fl64 ∧ AllDouble g.rows ∧
      (cfg.base.noiseAttr = 0 → g = s1.gen) ∧
      (∀ j < cfg.base.nVars,
        |s'.pm.mean.getD j 0 - mean (col g.rows j)| ≤
          ((1 + u) ^ ((order g.rows.length).depth + 1) - 1) * mean ((col g.rows j).map abs) + η ∧
        RoundedStd sq (order g.rows.length).depth (variance (col g.rows j))
          (s'.pm.mean.getD j 0 - mean (col g.rows j)) cfg.lowerFactor (s'.pm.std.getD j 0) ∧
        cfg.lowerFactor ≤ s'.pm.std.getD j 0) ∧
      ∀ (i : ℕ) (r : List K), s'.gen.rows[i]? = some r → ∀ j < cfg.base.nVars,
        |r.getD j 0 - (s'.pm.mean.getD j 0 + s'.pm.std.getD j 0 * ρ.sample t i j)| ≤
          u * |s'.pm.mean.getD j 0 + s'.pm.std.getD j 0 * ρ.sample t i j| +
            (1 + u) * (u * |s'.pm.std.getD j 0 * ρ.sample t i j| + η) := by
  obtain ⟨he, _, rfl⟩ := mkContR_ok h
  have hm := mkEda_ok he
  have hds := C81_UMDAc_doubles hv h hdata hvis
  obtain ⟨s1, noisy, ev, best, i, ind, hs⟩ := step_ok hst
  have hinv : RowInv e ρ (fun _ => True) (fun _ => True)
      (fun c : UniGauss K => c.n = cfg.base.nVars ∧ c.lb = cfg.lowerFactor) (fun _ => True) := by
    refine ⟨fun _ _ _ _ => trivial, fun _ _ _ _ _ _ => trivial, ?_, fun _ _ _ _ _ _ _ _ => trivial⟩
    intro a g el t a' ha _ _ hu
    rw [hm.updatePm] at hu
    simp only [UniGauss.learnR] at hu
    refine ⟨?_, trivial⟩
    split_ifs at hu
    · obtain rfl := Except.ok.inj hu; exact ha
    · obtain rfl := Except.ok.inj hu; exact ha
  obtain ⟨hpn, hpl⟩ := (allRows_visited hv hinv ⟨rfl, rfl⟩ hvis).pm
  have hu := hs.update
  rw [hm.updatePm] at hu
  simp only at hu
  have hcols : cfg.base.nVars ≤ (noisy.roundR fl64).cols := by
    by_contra hlt
    unfold UniGauss.learnR at hu
    rw [if_neg (by rw [hpn]; omega), if_pos (by rw [hpn]; omega)] at hu
    cases hu
  have hne : (noisy.roundR fl64).rows ≠ [] := by
    intro h0
    unfold UniGauss.learnR at hu
    rw [if_neg (by rw [hpn]; omega), if_neg (by rw [hpn]; omega), if_pos h0] at hu
    cases hu
  obtain ⟨b', k1, kg, k2⟩ := C81_learn hsq ho hpn hpl hn hcols hne (roundR_double noisy)
  obtain rfl := Except.ok.inj (k1.symm.trans hu)
  have hsam := hs.sample
  rw [hm.sample] at hsam
  simp only at hsam
  have hs0 : 0 ≤ cfg.base.sizeGen := by
    by_contra hlt
    unfold UniGauss.sampleR at hsam
    split_ifs at hsam
    all_goals exact absurd hlt (by omega)
  obtain ⟨out, o1, _, _, _, _, _, o2⟩ := C81_sample kg (learnR_double hds.mean k1) hs0 (ρ.sample t)
  obtain rfl := Except.ok.inj (o1.symm.trans hsam)
  refine ⟨s1, noisy, _, hs.trunc, hs.noise, rfl, roundR_double noisy, ?_,
    fun j hj => ⟨(k2 j hj).1, (k2 j hj).2.1, (k2 j hj).2.2.1⟩, o2⟩
  intro hno
  have hny := hs.noise
  rw [hm.mkNoise, hno] at hnz
  simp only [mkWhiteNoise, if_true] at hnz
  obtain rfl := Except.ok.inj hnz
  have hsame : noisy = s1.gen := by
    unfold addNoise at hny
    simp only at hny
    split at hny
    · cases hny
    · exact (Except.ok.inj hny).symm
  subst hsame
  have hd1 : AllDouble s1.gen.rows := by
    intro r hr
    rcases (truncation_rows hv (visited_aligned hv hvis) hs.trunc).1 r hr with h | h
    · exact hds.gen r h
    · exact hds.elite r h
  unfold Gen.roundR
  have : s1.gen.rows.map (List.map fl64) = s1.gen.rows := by
    conv_rhs => rw [← List.map_id s1.gen.rows]
    refine List.map_congr_left fun r hr => ?_
    conv_rhs => rw [id, ← List.map_id r]
    exact List.map_congr_left fun x hx => fl64_fix (hd1 r hr x hx)
  rw [this]

/-! ### Without rounding -/

theorem eval_id (t : SumTree) (x : ℕ → K) : t.eval id x = (t.leaves.map x).sum := by
  induction t with
  | zero => rfl
  | leaf i => simp [SumTree.eval, SumTree.leaves]
  | add l r hl hr => simp [SumTree.eval, SumTree.leaves, hl, hr]

theorem colMeanR_id (ho : SumsAll order) (rows : List (List K)) (j : ℕ) :
    colMeanR id order rows j = colMean rows j := by
  rw [colMean_eq]
  unfold colMeanR mean
  rw [eval_id]
  have := sum_order ho rows j id
  rw [List.map_id] at this
  simp only [id] at this ⊢
  rw [this]
  simp [col]

theorem colStdR_id (ho : SumsAll order) (rows : List (List K)) (j : ℕ) :
    colStdR id sq order rows j = colStd sq rows j := by
  rw [colStd_eq]
  unfold colStdR colVarR variance
  rw [eval_id, colMeanR_id ho, colMean_eq]
  have := sum_order ho rows j (fun x => (x - mean (col rows j)) * (x - mean (col rows j)))
  simp only [id] at this ⊢
  rw [this, mean]
  congr 2
  · congr 1
    exact List.map_congr_left fun x _ => by ring
  · simp [col]

/-- **C81** Without rounding the double precision model is the exact one, for any order of the additions. -/
theorem C81_exact (ho : SumsAll order) (cfg : UMDAcCfg K) :
    UMDAcR id sq order cfg = UMDAc id sq cfg ∧ PBILR id sq order cfg = PBIL id sq cfg := by
  have hround : ∀ g : Gen (List K), g.roundR id = g := by
    intro g; unfold Gen.roundR
    simp
  have h1 : (fun (b : UniGauss K) (g : Gen (List K)) => b.learnR id sq order g) = fun b g => b.learn sq g := by
    funext b g
    unfold UniGauss.learnR UniGauss.learn
    simp only [colStdR_id ho]
    have : colMeanR id order g.rows = colMean g.rows := funext (colMeanR_id ho g.rows)
    rw [this]
  have h2 : (fun (b : UniGauss K) (g : Gen (List K)) => b.learnAdaptR id sq order cfg.base.alpha g) =
      fun b g => b.learnAdapt sq cfg.base.alpha g := by
    funext b g
    unfold UniGauss.learnAdaptR UniGauss.learnAdapt
    simp only [colStdR_id ho, colMeanR_id ho, id]
    rfl
  have h3 : contInitSampleR id cfg = contInitSample id cfg := by
    funext ω
    unfold contInitSampleR contInitSample
    cases contInit cfg with
    | error e => rfl
    | ok c => cases c <;> rfl
  constructor
  · unfold UMDAcR UMDAc mkContR mkCont
    simp only [hround, h3]
    rw [show (UniGauss.learnR id sq order : UniGauss K → Gen (List K) → _) = fun b g => b.learn sq g from h1]
    rfl
  · unfold PBILR PBIL mkContR mkCont
    simp only [hround, h3]
    rw [show (UniGauss.learnAdaptR id sq order cfg.base.alpha : UniGauss K → Gen (List K) → _) =
      fun b g => b.learnAdapt sq cfg.base.alpha g from h2]
    rfl

end

/-! ### What fails in double precision -/

/-- `0.1` as a double. -/
def Ex.tenth : ℚ := 3602879701896397 / 2 ^ 55

/-- **C81** The mean of three equal numbers is not that number, and lies outside of their range: three times
`0.1`; and the deviation is then not zero. -/
theorem C81_mean_outside : ∃ rows : List (List ℚ), AllDouble rows ∧ rows ≠ [] ∧
    (∀ r ∈ rows, r = [fl64 (1 / 10)]) ∧ fl64 (1 / 10) < colMeanR fl64 npOrder rows 0 ∧
    0 < colVarR fl64 npOrder rows 0 ∧ variance (col rows 0) = 0 := by
  refine ⟨[[Ex.tenth], [Ex.tenth], [Ex.tenth]], ?_, by simp, ?_, ?_, ?_, ?_⟩
  · intro r hr x hx
    have : r = [Ex.tenth] := by simpa using hr
    subst this
    obtain rfl : x = Ex.tenth := by simpa using hx
    exact ⟨3602879701896397, -55, by norm_num, by norm_num, by rw [Ex.tenth, zpow_neg]; rfl⟩
  · have : fl64 (1 / 10 : ℚ) = Ex.tenth := by decide +kernel
    intro r hr
    rw [this]; simpa using hr
  · decide +kernel
  · decide +kernel
  · decide +kernel

/-- A generation of four individuals with values that are not exact in binary. -/
def Ex.decimals : List (List ℚ) := [[fl64 (1 / 10)], [fl64 (2 / 10)], [fl64 (3 / 10)], [fl64 (7 / 10)]]

theorem Ex.decimals_double : AllDouble Ex.decimals := by
  intro r hr x hx
  simp only [Ex.decimals, List.mem_cons, List.not_mem_nil, or_false] at hr
  rcases hr with rfl | rfl | rfl | rfl <;>
  · rw [List.mem_singleton] at hx
    subst hx
    exact fl64_double _

example : |colMeanR fl64 npOrder Ex.decimals 0 - mean (col Ex.decimals 0)| ≤
    2 ^ (-47 : ℤ) * mean ((col Ex.decimals 0).map abs) + 2 ^ (-1075 : ℤ) :=
  (C81_numpy Ex.decimals_double (by simp [Ex.decimals]) (by simp [Ex.decimals]) 0).1

/-- A deviation learned from these values, in double precision, with a floor of `1/10`. -/
example : ∃ b' : UniGauss ℝ, UniGauss.learnR fl64 Real.sqrt npOrder (UniGauss.new 1 (1 / 10))
      { dt := .float, cols := 1, rows := [[1], [2], [4]] } = .ok b' ∧ 1 / 10 ≤ b'.std.getD 0 0 ∧
      |b'.mean.getD 0 0 - 7 / 3| ≤ ((1 + 2 ^ (-53 : ℤ)) ^ 4 - 1) * (7 / 3) + 2 ^ (-1075 : ℤ) := by
  have hd : AllDouble ([[1], [2], [4]] : List (List ℝ)) := by
    intro r hr x hx
    simp only [List.mem_cons, List.not_mem_nil, or_false] at hr
    rcases hr with rfl | rfl | rfl <;> rw [List.mem_singleton] at hx <;> subst hx
    · exact ⟨1, 0, by norm_num, by norm_num, by norm_num⟩
    · exact ⟨2, 0, by norm_num, by norm_num, by norm_num⟩
    · exact ⟨4, 0, by norm_num, by norm_num, by norm_num⟩
  obtain ⟨b', h1, _, h2⟩ := C81_learn (b := UniGauss.new 1 (1 / 10)) (n := 1) (lb := 1 / 10)
    (g := { dt := .float, cols := 1, rows := [[1], [2], [4]] }) real_isSqrt npOrder_sumsAll rfl rfl (by norm_num)
    le_rfl (by simp) hd
  obtain ⟨m1, _, m3, _⟩ := h2 0 (by norm_num)
  refine ⟨b', h1, m3, ?_⟩
  have e1 : mean (col ([[1], [2], [4]] : List (List ℝ)) 0) = 7 / 3 := by norm_num [mean, col]
  have e2 : mean ((col ([[1], [2], [4]] : List (List ℝ)) 0).map abs) = 7 / 3 := by norm_num [mean, col]
  have e3 : (npOrder 3).depth = 3 := by decide
  simp only [List.length_cons, List.length_nil] at m1
  rw [e1, e2, e3] at m1
  exact m1

theorem Ex.selLen_half64 : selLen (fl64 : ℝ → ℝ) 4 (1 / 2) = 2 := by
  have h2 : ((4 : ℤ) : ℝ) * (1 / 2) = ((2 : ℤ) : ℝ) := by norm_num
  unfold selLen
  simp only [h2]
  rw [fl64_int (by norm_num)]
  unfold pyInt Num.truncZ
  norm_num

theorem Ex.cont_valid64 :
    ContValid Ex.env.cpu Ex.cont.base Ex.cont 4 (selLen fl64 Ex.cont.base.sizeGen Ex.cont.base.alpha) :=
  { Ex.cont_valid with trunc := by show 1 ≤ selLen (fl64 : ℝ → ℝ) 4 (1/2); rw [Ex.selLen_half64]; norm_num
                       noise := .inl (by simp [BaseCfg.noiseAttr, Ex.cont]) }

/-- A run of `UMDAc` in double precision. -/
example (ρ : Rand (Draws ℝ)) : ∃ e b, UMDAcR fl64 Real.sqrt npOrder Ex.cont = .ok (e, b) ∧
    ∃ res s, minimize Ex.env e (fun _ _ => (3 : ℚ)) 0 b ρ = .ok (res, s) ∧
      ∀ t s, Visited Ex.env e (fun _ _ => (3 : ℚ)) 0 b ρ t s → AllDouble s.gen.rows := by
  obtain ⟨e, b, h, res, s, hr⟩ := C81_UMDAc_never_raises (ρ := ρ) (ftol := (0 : ℚ)) (order := npOrder)
    (f := fun _ _ => 3) Ex.env_valid real_isSqrt Ex.cont_valid64 (fun _ _ => field_isNum _)
  exact ⟨e, b, h, res, s, hr, fun t s hs =>
    (C81_UMDAc_doubles Ex.env_valid h (by intro d hd; simp [Ex.cont] at hd) hs).gen⟩

example : colMeanR fl64 npOrder Ex.decimals 0 ≠ mean (col Ex.decimals 0) := by decide +kernel

end Verif
