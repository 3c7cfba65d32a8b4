/-
Rounding to double precision is monotone and fixes the integers up to `2^53`.
-/
import Verif.Model.Float64
import Mathlib.Tactic.FieldSimp
import Mathlib.Tactic.Positivity

set_option linter.unusedSectionVars false

namespace Verif

variable {K : Type} [Field K] [LinearOrder K] [IsStrictOrderedRing K] [FloorRing K]

theorem roundEven_floor_le (x : K) : ⌊x⌋ ≤ roundEven x := by
  unfold roundEven; split_ifs <;> omega

theorem roundEven_le_floor (x : K) : roundEven x ≤ ⌊x⌋ + 1 := by
  unfold roundEven; split_ifs <;> omega

theorem roundEven_int (n : ℤ) : roundEven (n : K) = n := by
  unfold roundEven; simp

theorem roundEven_mono {x y : K} (h : x ≤ y) : roundEven x ≤ roundEven y := by
  have hf : ⌊x⌋ ≤ ⌊y⌋ := Int.floor_le_floor h
  rcases hf.lt_or_eq with hlt | heq
  · have := roundEven_le_floor x
    have := roundEven_floor_le y
    omega
  · unfold roundEven
    rw [← heq]
    split_ifs with h1 h2 h3 h4 h5 h6 h7 h8 <;> first | omega | (exfalso; linarith)

theorem roundEven_le_of_le {x : K} {n : ℤ} (h : x ≤ n) : roundEven x ≤ n := by
  have := roundEven_mono h
  rwa [roundEven_int] at this

theorem le_roundEven_of_le {x : K} {n : ℤ} (h : (n : K) ≤ x) : n ≤ roundEven x := by
  have := roundEven_mono h
  rwa [roundEven_int] at this

theorem two_zpow_pos (e : ℤ) : (0 : K) < 2 ^ e := zpow_pos (by norm_num) e

theorem roundPos_zero : roundPos (0 : K) = 0 := by
  unfold roundPos
  have : roundEven ((0 : K) / 2 ^ ulpExp (0 : K)) = 0 := by
    rw [zero_div]; exact_mod_cast roundEven_int (K := K) 0
  rw [this]; simp

theorem roundPos_nonneg {x : K} (h : 0 ≤ x) : 0 ≤ roundPos x := by
  unfold roundPos
  have : (0 : ℤ) ≤ roundEven (x / 2 ^ ulpExp x) :=
    le_roundEven_of_le (by push_cast; exact div_nonneg h (two_zpow_pos _).le)
  exact mul_nonneg (by exact_mod_cast this) (two_zpow_pos _).le

/-- A number whose last bit is not below the exponent of `x` is a bound that rounding keeps. -/
theorem roundPos_le {x : K} {n k : ℤ} (hk : ulpExp x ≤ k) (h : x ≤ n * 2 ^ k) :
    roundPos x ≤ n * 2 ^ k := by
  have hpow : (2 : K) ^ k = (2 ^ (k - ulpExp x).toNat : ℤ) * 2 ^ ulpExp x := by
    push_cast
    rw [← zpow_natCast, ← zpow_add₀ (by norm_num)]
    congr 1; omega
  have hle : x / 2 ^ ulpExp x ≤ ((n * 2 ^ (k - ulpExp x).toNat : ℤ) : K) := by
    rw [div_le_iff₀ (two_zpow_pos _)]
    rw [hpow] at h
    push_cast at h ⊢
    linarith
  have := roundEven_le_of_le hle
  unfold roundPos
  calc (roundEven (x / 2 ^ ulpExp x) : K) * 2 ^ ulpExp x
      ≤ ((n * 2 ^ (k - ulpExp x).toNat : ℤ) : K) * 2 ^ ulpExp x :=
        mul_le_mul_of_nonneg_right (by exact_mod_cast this) (two_zpow_pos _).le
    _ = n * 2 ^ k := by rw [hpow]; push_cast; ring

theorem le_roundPos {x : K} {n k : ℤ} (hk : ulpExp x ≤ k) (h : n * 2 ^ k ≤ x) :
    n * 2 ^ k ≤ roundPos x := by
  have hpow : (2 : K) ^ k = (2 ^ (k - ulpExp x).toNat : ℤ) * 2 ^ ulpExp x := by
    push_cast
    rw [← zpow_natCast, ← zpow_add₀ (by norm_num)]
    congr 1; omega
  have hle : ((n * 2 ^ (k - ulpExp x).toNat : ℤ) : K) ≤ x / 2 ^ ulpExp x := by
    rw [le_div_iff₀ (two_zpow_pos _)]
    rw [hpow] at h
    push_cast at h ⊢
    linarith
  have := le_roundEven_of_le hle
  unfold roundPos
  calc (n : K) * 2 ^ k = ((n * 2 ^ (k - ulpExp x).toNat : ℤ) : K) * 2 ^ ulpExp x := by
        rw [hpow]; push_cast; ring
    _ ≤ (roundEven (x / 2 ^ ulpExp x) : K) * 2 ^ ulpExp x :=
        mul_le_mul_of_nonneg_right (by exact_mod_cast this) (two_zpow_pos _).le

/-- Rounding fixes every double. -/
theorem roundPos_fix {x : K} {n k : ℤ} (hk : ulpExp x ≤ k) (h : x = n * 2 ^ k) : roundPos x = x :=
  le_antisymm ((roundPos_le hk h.le).trans h.ge) (h.le.trans (le_roundPos hk h.ge))

theorem ulpExp_mono {x y : K} (h0 : 0 < x) (h : x ≤ y) : ulpExp x ≤ ulpExp y := by
  unfold ulpExp
  have := Int.log_mono_right (b := 2) h0 h
  omega

theorem roundPos_mono {x y : K} (h0 : 0 ≤ x) (h : x ≤ y) : roundPos x ≤ roundPos y := by
  rcases h0.eq_or_lt with rfl | h0
  · rw [roundPos_zero]; exact roundPos_nonneg h
  have he := ulpExp_mono h0 h
  rcases he.eq_or_lt with heq | hlt
  · unfold roundPos
    rw [heq]
    refine mul_le_mul_of_nonneg_right ?_ (two_zpow_pos _).le
    exact_mod_cast roundEven_mono (div_le_div_of_nonneg_right h (two_zpow_pos _).le)
  · have hy : ulpExp y = Int.log 2 y - 52 := by
      unfold ulpExp at hlt ⊢; omega
    have hx : Int.log 2 x + 1 ≤ ulpExp y + 52 := by
      unfold ulpExp at hlt; rw [hy]; unfold ulpExp at hy; omega
    have h1 : x ≤ ((1 : ℤ) : K) * 2 ^ (ulpExp y + 52) := by
      have := (Int.lt_zpow_succ_log_self (b := 2) (by norm_num) x).le
      push_cast at this ⊢
      rw [one_mul]
      exact this.trans (zpow_le_zpow_right₀ (by norm_num) hx)
    have h2 : ((2 ^ 52 : ℤ) : K) * 2 ^ ulpExp y ≤ y := by
      have := Int.zpow_log_le_self (b := 2) (by norm_num) (h0.trans_le h)
      rw [show Int.log 2 y = 52 + ulpExp y by omega, zpow_add₀ (by norm_num)] at this
      push_cast at this ⊢
      norm_num at this ⊢
      exact this
    refine (roundPos_le (by omega) h1).trans ((le_of_eq ?_).trans (le_roundPos le_rfl h2))
    push_cast
    rw [zpow_add₀ (by norm_num), one_mul, mul_comm]; norm_num

theorem roundEven_nearest (x : K) (m : ℤ) : |x - roundEven x| ≤ |x - m| := by
  have h1 := Int.floor_le x
  have h2 := Int.lt_floor_add_one x
  have hm : m ≤ ⌊x⌋ ∨ ⌊x⌋ + 1 ≤ m := by omega
  have hcase : (roundEven x = ⌊x⌋ ∧ x - ⌊x⌋ ≤ 1 / 2) ∨
      (roundEven x = ⌊x⌋ + 1 ∧ 1 / 2 ≤ x - ⌊x⌋) := by
    unfold roundEven
    split_ifs with a b c
    · exact .inl ⟨rfl, a.le⟩
    · exact .inr ⟨rfl, b.le⟩
    · exact .inl ⟨rfl, not_lt.1 b⟩
    · exact .inr ⟨rfl, not_lt.1 a⟩
  have hr : |x - roundEven x| ≤ x - ⌊x⌋ ∧ |x - roundEven x| ≤ ⌊x⌋ + 1 - x := by
    rcases hcase with ⟨he, hb⟩ | ⟨he, hb⟩
    · rw [he, abs_of_nonneg (by linarith)]
      exact ⟨le_rfl, by linarith⟩
    · rw [he, abs_of_nonpos (by push_cast; linarith)]
      push_cast
      exact ⟨by linarith, by linarith⟩
  rcases hm with hm | hm
  · have hm : (m : K) ≤ ⌊x⌋ := by exact_mod_cast hm
    rw [abs_of_nonneg (by linarith : 0 ≤ x - (m : K))]
    linarith [hr.1]
  · have hm : ((⌊x⌋ : ℤ) : K) + 1 ≤ m := by exact_mod_cast hm
    rw [abs_of_nonpos (by linarith : x - (m : K) ≤ 0)]
    linarith [hr.2]

theorem roundPos_nearest {x : K} (hx : 0 ≤ x) {n k : ℤ} (hn : |n| ≤ 2 ^ 53) (hk : -1074 ≤ k) :
    |x - roundPos x| ≤ |x - n * 2 ^ k| := by
  have grid : ∀ m : ℤ, |x - roundPos x| ≤ |x - m * 2 ^ ulpExp x| := by
    intro m
    have h := roundEven_nearest (x / 2 ^ ulpExp x) m
    have hu := two_zpow_pos (K := K) (ulpExp x)
    have e : ∀ y : K, |x - y * 2 ^ ulpExp x| = |x / 2 ^ ulpExp x - y| * 2 ^ ulpExp x := by
      intro y
      rw [← abs_of_pos hu, ← abs_mul, abs_of_pos hu]
      congr 1; field_simp
    unfold roundPos
    rw [e, e]
    exact mul_le_mul_of_nonneg_right h hu.le
  rcases hx.eq_or_lt with rfl | hpos
  · rw [roundPos_zero, sub_zero, abs_zero]; exact abs_nonneg _
  by_cases hku : ulpExp x ≤ k
  · have hpow : (2 : K) ^ k = (2 ^ (k - ulpExp x).toNat : ℤ) * 2 ^ ulpExp x := by
      push_cast
      rw [← zpow_natCast, ← zpow_add₀ (by norm_num)]
      congr 1; omega
    have := grid (n * 2 ^ (k - ulpExp x).toNat)
    rw [hpow]
    push_cast at this ⊢
    rwa [← mul_assoc]
  · have hy : Int.log 2 x = 52 + ulpExp x := by
      unfold ulpExp at hku ⊢; omega
    have hB : ((2 ^ 52 : ℤ) : K) * 2 ^ ulpExp x ≤ x := by
      have := Int.zpow_log_le_self (b := 2) (by norm_num) hpos
      rw [hy, zpow_add₀ (by norm_num)] at this
      push_cast at this ⊢
      norm_num at this ⊢
      exact this
    have hd : (n : K) * 2 ^ k ≤ ((2 ^ 52 : ℤ) : K) * 2 ^ ulpExp x := by
      have h1 : (n : K) ≤ 2 ^ 53 := by exact_mod_cast (le_abs_self n).trans hn
      calc (n : K) * 2 ^ k ≤ 2 ^ 53 * 2 ^ k := mul_le_mul_of_nonneg_right h1 (two_zpow_pos _).le
        _ = 2 ^ 52 * 2 ^ (k + 1) := by rw [zpow_add₀ (by norm_num)]; ring
        _ ≤ 2 ^ 52 * 2 ^ ulpExp x := mul_le_mul_of_nonneg_left
            (zpow_le_zpow_right₀ (by norm_num) (by omega)) (by positivity)
        _ = _ := by push_cast; norm_num
    have := grid (2 ^ 52)
    refine this.trans ?_
    rw [abs_of_nonneg (by linarith), abs_of_nonneg (by linarith)]
    linarith

/-- `fl64 x` is a nearest double: no number `n * 2^k` with `|n| ≤ 2^53` and `k ≥ -1074` is closer. -/
theorem fl64_nearest (x : K) {n k : ℤ} (hn : |n| ≤ 2 ^ 53) (hk : -1074 ≤ k) :
    |x - fl64 x| ≤ |x - n * 2 ^ k| := by
  unfold fl64
  by_cases hx : x < 0
  · rw [if_pos hx]
    have := roundPos_nearest (x := -x) (by linarith) (n := -n) (by rwa [abs_neg]) hk
    have e1 : x - -roundPos (-x) = -(-x - roundPos (-x)) := by ring
    have e2 : x - (n : K) * 2 ^ k = -(-x - ((-n : ℤ) : K) * 2 ^ k) := by push_cast; ring
    rw [e1, e2, abs_neg, abs_neg]
    exact this
  · rw [if_neg hx]
    exact roundPos_nearest (not_lt.1 hx) hn hk

/-- Rounding to double precision is monotone. -/
theorem fl64_mono : Monotone (fl64 : K → K) := by
  intro x y h
  unfold fl64
  by_cases hx : x < 0
  · rw [if_pos hx]
    by_cases hy : y < 0
    · rw [if_pos hy]
      exact neg_le_neg (roundPos_mono (by linarith) (by linarith))
    · rw [if_neg hy]
      have h1 := roundPos_nonneg (x := -x) (by linarith)
      have h2 := roundPos_nonneg (not_lt.1 hy)
      linarith
  · rw [if_neg hx, if_neg (by intro hc; exact hx (h.trans_lt hc))]
    exact roundPos_mono (not_lt.1 hx) h

theorem fl64_zero : fl64 (0 : K) = 0 := by
  unfold fl64; rw [if_neg (lt_irrefl _), roundPos_zero]

/-- Integers up to `2^53` are doubles. -/
theorem fl64_int {n : ℤ} (h : |n| ≤ 2 ^ 53) : fl64 (n : K) = n := by
  have key : ∀ m : ℤ, 0 ≤ m → m ≤ 2 ^ 53 → roundPos (m : K) = m := by
    intro m hm0 hm
    rcases hm0.eq_or_lt with rfl | hpos
    · push_cast; exact roundPos_zero
    rcases hm.eq_or_lt with rfl | hlt
    · refine roundPos_fix (n := 1) (k := 53) ?_ (by norm_num)
      have : Int.log 2 (((2 ^ 53 : ℤ) : K)) = 53 := by
        have := Int.log_zpow (R := K) (b := 2) (by norm_num) 53
        push_cast at this ⊢
        exact_mod_cast this
      unfold ulpExp; omega
    · refine roundPos_fix (n := m) (k := 0) ?_ (by simp)
      have hmK : (0 : K) < (m : K) := by exact_mod_cast hpos
      have : Int.log 2 (m : K) < 53 := by
        rw [← Int.lt_zpow_iff_log_lt (by norm_num) hmK]
        exact_mod_cast hlt
      unfold ulpExp; omega
  unfold fl64
  have habs := abs_le.1 h
  by_cases hn : (n : K) < 0
  · rw [if_pos hn]
    have hn' : n < 0 := by exact_mod_cast hn
    have := key (-n) (by omega) (by omega)
    push_cast at this
    rw [this]; ring
  · rw [if_neg hn]
    have hn' : 0 ≤ n := by exact_mod_cast not_lt.1 hn
    exact key n hn' habs.2

/-! ### Doubles -/

theorem isDouble_grid {x : K} (h : IsDouble x) : ∃ n : ℤ, x = n * 2 ^ (-1074 : ℤ) := by
  obtain ⟨n, k, _, hk, rfl⟩ := h
  refine ⟨n * 2 ^ (k + 1074).toNat, ?_⟩
  have : (2 : K) ^ k = 2 ^ (k + 1074).toNat * 2 ^ (-1074 : ℤ) := by
    rw [← zpow_natCast, ← zpow_add₀ (by norm_num)]
    congr 1; omega
  rw [this]; push_cast; ring

theorem fl64_fix {x : K} (h : IsDouble x) : fl64 x = x := by
  obtain ⟨n, k, hn, hk, rfl⟩ := h
  have := fl64_nearest ((n : K) * 2 ^ k) hn hk
  rw [sub_self, abs_zero] at this
  have := abs_eq_zero.1 (le_antisymm this (abs_nonneg _))
  linarith

theorem roundPos_double {x : K} (hx : 0 ≤ x) : IsDouble (roundPos x) := by
  rcases hx.eq_or_lt with rfl | hpos
  · rw [roundPos_zero]
    exact ⟨0, 0, by norm_num, by norm_num, by simp⟩
  refine ⟨roundEven (x / 2 ^ ulpExp x), ulpExp x, ?_, by unfold ulpExp; omega, rfl⟩
  have hlt : x < ((2 ^ 53 : ℤ) : K) * 2 ^ ulpExp x := by
    have h1 := Int.lt_zpow_succ_log_self (b := 2) (by norm_num) x
    have h2 : ((2 : ℕ) : K) ^ (Int.log 2 x + 1) ≤ 2 ^ (53 + ulpExp x) := by
      push_cast
      exact zpow_le_zpow_right₀ (by norm_num) (by unfold ulpExp; omega)
    have h3 : (2 : K) ^ (53 + ulpExp x) = ((2 ^ 53 : ℤ) : K) * 2 ^ ulpExp x := by
      rw [zpow_add₀ (by norm_num)]; push_cast; norm_num
    linarith
  have hu := two_zpow_pos (K := K) (ulpExp x)
  have h1 : roundEven (x / 2 ^ ulpExp x) ≤ 2 ^ 53 :=
    roundEven_le_of_le (by rw [div_le_iff₀ hu]; exact hlt.le)
  have h0 : 0 ≤ roundEven (x / 2 ^ ulpExp x) :=
    le_roundEven_of_le (by push_cast; positivity)
  rw [abs_of_nonneg h0]; exact h1

theorem IsDouble.neg {x : K} (h : IsDouble x) : IsDouble (-x) := by
  obtain ⟨n, k, hn, hk, rfl⟩ := h
  exact ⟨-n, k, by rwa [abs_neg], hk, by push_cast; ring⟩

/-- The result of every operation is a double. -/
theorem fl64_double (x : K) : IsDouble (fl64 x) := by
  unfold fl64
  by_cases hx : x < 0
  · rw [if_pos hx]; exact (roundPos_double (by linarith)).neg
  · rw [if_neg hx]; exact roundPos_double (not_lt.1 hx)

theorem roundEven_half (x : K) : |x - roundEven x| ≤ 1 / 2 := by
  have h1 := Int.floor_le x
  have h2 := Int.lt_floor_add_one x
  have a := roundEven_nearest x ⌊x⌋
  have b := roundEven_nearest x (⌊x⌋ + 1)
  rw [abs_of_nonneg (a := x - ((⌊x⌋ : ℤ) : K)) (by linarith)] at a
  rw [abs_of_nonpos (a := x - ((⌊x⌋ + 1 : ℤ) : K)) (by push_cast; linarith)] at b
  push_cast at b
  linarith

theorem roundPos_half (x : K) : |x - roundPos x| ≤ 2 ^ ulpExp x / 2 := by
  have hu := two_zpow_pos (K := K) (ulpExp x)
  have h := roundEven_half (x / 2 ^ ulpExp x)
  have e : x - roundPos x = (x / 2 ^ ulpExp x - roundEven (x / 2 ^ ulpExp x)) * 2 ^ ulpExp x := by
    unfold roundPos; field_simp
  rw [e, abs_mul, abs_of_pos hu]
  calc _ ≤ 1 / 2 * 2 ^ ulpExp x := mul_le_mul_of_nonneg_right h hu.le
    _ = _ := by ring

/-- Rounding a number of `[0, 1]` changes it by at most `2^-54`. -/
theorem fl64_unit {x : K} (h0 : 0 ≤ x) (h1 : x ≤ 1) : |x - fl64 x| ≤ 2 ^ (-54 : ℤ) := by
  rcases h1.eq_or_lt with rfl | h1
  · have := fl64_int (K := K) (n := 1) (by norm_num)
    push_cast at this
    rw [this, sub_self, abs_zero]; positivity
  rcases h0.eq_or_lt with rfl | h0
  · rw [fl64_zero, sub_self, abs_zero]; positivity
  unfold fl64
  rw [if_neg (not_lt.2 h0.le)]
  refine (roundPos_half x).trans ?_
  have hlog : Int.log 2 x < 0 := by
    rw [← Int.lt_zpow_iff_log_lt (by norm_num) h0]; simpa using h1
  have : (2 : K) ^ ulpExp x ≤ 2 ^ (-53 : ℤ) :=
    zpow_le_zpow_right₀ (by norm_num) (by unfold ulpExp; omega)
  have e : (2 : K) ^ (-54 : ℤ) = 2 ^ (-53 : ℤ) / 2 := by
    rw [show (-53 : ℤ) = -54 + 1 by norm_num, zpow_add₀ (by norm_num)]; norm_num
  rw [e]
  exact div_le_div_of_nonneg_right this (by norm_num)

/-- A difference `d` of doubles, rounded, multiplied by a number up to `1 - 2^-53` and rounded again,
does not exceed `d`. -/
theorem fl64_mul_le {l h u : K} (hl : IsDouble l) (hh : IsDouble h) (hlh : l ≤ h)
    (hu1 : u ≤ 1 - 2 ^ (-53 : ℤ)) : fl64 (fl64 (h - l) * u) ≤ h - l := by
  obtain ⟨d, hd⟩ : ∃ d, h - l = d := ⟨_, rfl⟩
  have hd0 : 0 ≤ d := by linarith
  rw [hd]
  have hu1' : u ≤ 1 := hu1.trans (by have := two_zpow_pos (K := K) (-53); linarith)
  have hR0 : 0 ≤ fl64 d := by have := fl64_mono hd0; rwa [fl64_zero] at this
  rcases le_or_gt (fl64 d) d with hR | hR
  · have h1 : fl64 d * u ≤ fl64 d := mul_le_of_le_one_right hR0 hu1'
    have h2 := fl64_mono h1
    rw [fl64_fix (fl64_double d)] at h2
    exact h2.trans hR
  -- the difference was rounded up
  have hdpos : 0 < d := by
    rcases hd0.eq_or_lt with rfl | h
    · rw [fl64_zero] at hR; exact absurd hR (lt_irrefl _)
    · exact h
  obtain ⟨e, he⟩ : ∃ e, ulpExp d = e := ⟨_, rfl⟩
  have hue := two_zpow_pos (K := K) e
  have hRd : fl64 d = (roundEven (d / 2 ^ e) : K) * 2 ^ e := by
    unfold fl64; rw [if_neg (not_lt.2 hd0)]; unfold roundPos; rw [he]
  obtain ⟨m, hm⟩ : ∃ m, roundEven (d / 2 ^ e) = m := ⟨_, rfl⟩
  rw [hm] at hRd
  have hmy : d / 2 ^ e < m := by rw [div_lt_iff₀ hue, ← hRd]; exact hR
  have hmf : ⌊d / 2 ^ e⌋ + 1 = m := by
    have h1 := roundEven_le_floor (d / 2 ^ e)
    have h2 : ⌊d / 2 ^ e⌋ < m := Int.floor_lt.2 hmy
    omega
  have hfl : ((m - 1 : ℤ) : K) * 2 ^ e ≤ d := by
    have := Int.floor_le (d / 2 ^ e)
    rw [← le_div_iff₀ hue]
    have e1 : m - 1 = ⌊d / 2 ^ e⌋ := by omega
    rw [e1]; exact this
  have hne : e ≠ -1074 := by
    intro h74
    obtain ⟨a, ha⟩ := isDouble_grid hl
    obtain ⟨b, hb⟩ := isDouble_grid hh
    have hint : d / 2 ^ e = ((b - a : ℤ) : K) := by
      rw [← hd, hb, ha, h74]
      have := (two_zpow_pos (K := K) (-1074)).ne'
      push_cast
      field_simp
    rw [hint, roundEven_int] at hm
    rw [hint, hm] at hmy
    exact lt_irrefl _ hmy
  have hlog : Int.log 2 d = e + 52 := by unfold ulpExp at he; omega
  have he74 : -1074 ≤ e := by unfold ulpExp at he; omega
  have hlo : ((2 ^ 52 : ℤ) : K) * 2 ^ e ≤ d := by
    have := Int.zpow_log_le_self (b := 2) (by norm_num) hdpos
    rw [hlog, zpow_add₀ (by norm_num)] at this
    push_cast at this ⊢
    norm_num at this ⊢
    linarith
  have hhi : d < ((2 ^ 53 : ℤ) : K) * 2 ^ e := by
    have := Int.lt_zpow_succ_log_self (b := 2) (by norm_num) d
    rw [hlog, show e + 52 + 1 = e + 53 by ring, zpow_add₀ (by norm_num)] at this
    push_cast at this ⊢
    norm_num at this ⊢
    linarith
  have hm52 : 2 ^ 52 < m := by
    have : ((2 ^ 52 : ℤ) : K) < m := by
      refine lt_of_le_of_lt ?_ hmy
      rw [le_div_iff₀ hue]; exact hlo
    exact_mod_cast this
  have hm53 : m ≤ 2 ^ 53 := by
    have : ⌊d / 2 ^ e⌋ < 2 ^ 53 := by
      rw [Int.floor_lt, div_lt_iff₀ hue]; exact hhi
    omega
  -- the product is closer to the double below
  have hprod : fl64 d * u < ((m : K) - 1 / 2) * 2 ^ e := by
    have h1 : fl64 d * u ≤ fl64 d * (1 - 2 ^ (-53 : ℤ)) := mul_le_mul_of_nonneg_left hu1 hR0
    refine lt_of_le_of_lt h1 ?_
    rw [hRd]
    have hmK : ((2 ^ 52 : ℤ) : K) < m := by exact_mod_cast hm52
    have hz : (2 : K) ^ (-53 : ℤ) = 1 / 2 / 2 ^ 52 := by
      rw [zpow_neg]; norm_num
    have : (1 : K) / 2 < m * 2 ^ (-53 : ℤ) := by
      rw [hz]
      push_cast at hmK
      rw [mul_div_assoc', lt_div_iff₀ (by positivity)]
      linarith
    have h2 : (m : K) * 2 ^ e * (1 - 2 ^ (-53 : ℤ)) = (m - m * 2 ^ (-53 : ℤ)) * 2 ^ e := by ring
    rw [h2]
    exact mul_lt_mul_of_pos_right (by linarith) hue
  have hdbl : IsDouble (((m - 1 : ℤ) : K) * 2 ^ e) :=
    ⟨m - 1, e, by rw [abs_of_nonneg (by omega)]; omega, he74, rfl⟩
  refine le_trans ?_ hfl
  rcases le_or_gt (fl64 d * u) (((m - 1 : ℤ) : K) * 2 ^ e) with hle | hgt
  · have := fl64_mono hle
    rwa [fl64_fix hdbl] at this
  · have hpos : 0 < fl64 d * u := lt_of_le_of_lt
      (mul_nonneg (by have : (0 : ℤ) ≤ m - 1 := by omega
                      exact_mod_cast this) hue.le) hgt
    have hux : ulpExp (fl64 d * u) = e := by
      have a1 : Int.log 2 (fl64 d * u) < e + 53 := by
        rw [← Int.lt_zpow_iff_log_lt (by norm_num) hpos, zpow_add₀ (by norm_num)]
        have : (m : K) ≤ 2 ^ 53 := by exact_mod_cast hm53
        have h3 : ((m : K) - 1 / 2) * 2 ^ e ≤ 2 ^ 53 * 2 ^ e :=
          mul_le_mul_of_nonneg_right (by linarith) hue.le
        push_cast
        norm_num at h3 ⊢
        linarith
      have a2 : e + 52 ≤ Int.log 2 (fl64 d * u) := by
        rw [← Int.zpow_le_iff_le_log (by norm_num) hpos, zpow_add₀ (by norm_num)]
        have : (2 : K) ^ 52 ≤ ((m - 1 : ℤ) : K) := by
          have : (2 : ℤ) ^ 52 ≤ m - 1 := by omega
          exact_mod_cast this
        have h3 : (2 : K) ^ 52 * 2 ^ e ≤ ((m - 1 : ℤ) : K) * 2 ^ e :=
          mul_le_mul_of_nonneg_right this hue.le
        push_cast at h3 hgt ⊢
        norm_num at h3 hgt ⊢
        linarith
      unfold ulpExp; omega
    have hr : roundEven (fl64 d * u / 2 ^ e) ≤ m - 1 := by
      have b1 : fl64 d * u / 2 ^ e < (m : K) - 1 / 2 := by rw [div_lt_iff₀ hue]; exact hprod
      have b2 : ((m - 1 : ℤ) : K) < fl64 d * u / 2 ^ e := by rw [lt_div_iff₀ hue]; exact hgt
      have b3 : ⌊fl64 d * u / 2 ^ e⌋ = m - 1 := by
        rw [Int.floor_eq_iff]
        refine ⟨b2.le, ?_⟩
        push_cast
        linarith
      unfold roundEven
      rw [b3, if_pos (by push_cast; linarith)]
    generalize fl64 d * u = x at hpos hux hr
    unfold fl64
    rw [if_neg (not_lt.2 hpos.le)]
    unfold roundPos
    rw [hux]
    exact mul_le_mul_of_nonneg_right (by exact_mod_cast hr) hue.le

/-- `low + (high - low) * u` in double arithmetic stays within the bounds. -/
theorem fl64_uniform {l h u : K} (hl : IsDouble l) (hh : IsDouble h) (hlh : l ≤ h) (hu0 : 0 ≤ u)
    (hu1 : u ≤ 1 - 2 ^ (-53 : ℤ)) :
    l ≤ fl64 (l + fl64 (fl64 (h - l) * u)) ∧ fl64 (l + fl64 (fl64 (h - l) * u)) ≤ h := by
  constructor
  · have h1 : 0 ≤ fl64 (h - l) := by
      have := fl64_mono (sub_nonneg.2 hlh); rwa [fl64_zero] at this
    have h2 : 0 ≤ fl64 (fl64 (h - l) * u) := by
      have := fl64_mono (mul_nonneg h1 hu0); rwa [fl64_zero] at this
    have := fl64_mono (show l ≤ l + fl64 (fl64 (h - l) * u) by linarith)
    rwa [fl64_fix hl] at this
  · have := fl64_mono (show l + fl64 (fl64 (h - l) * u) ≤ h by
      have := fl64_mul_le hl hh hlh hu1; linarith)
    rwa [fl64_fix hh] at this

end Verif
