/-
The function `w * sin √w` of the modified Schwefel benchmark stays below `418.9829` on `[0, 500]`.
-/
import Mathlib.Analysis.SpecialFunctions.Trigonometric.Bounds
import Mathlib.Analysis.Real.Pi.Bounds

namespace Verif

open Real

/-- An upper bound of the cosine, from `sin v ≥ v - v³/6`. -/
theorem cos_le_poly {u : ℝ} (h0 : 0 ≤ u) (h2 : u ≤ 2) :
    cos u ≤ 1 - 2 * (u / 2 - (u / 2) ^ 3 / 6) ^ 2 := by
  have hs := sin_ge_sub_cube (x := u / 2) (by linarith)
  have hp : 0 ≤ u / 2 - (u / 2) ^ 3 / 6 := by nlinarith [mul_nonneg h0 h0]
  have h : cos u = 1 - 2 * sin (u / 2) ^ 2 := by
    have := cos_sq' (u / 2)
    have h2 := cos_two_mul (u / 2)
    rw [show 2 * (u / 2) = u by ring] at h2
    rw [h2, this]; ring
  rw [h]
  nlinarith

/-- The polynomial inequality behind the bound; equality nearly holds at `u = 0.09717`. -/
theorem poly_bound {a u : ℝ} (ha0 : 0 ≤ a) (ha : a ≤ 20.42035224834) (h0 : 0 ≤ u) (h2 : u ≤ 2)
    {q : ℝ} (hq : q ≤ 1 - 2 * (u / 2 - (u / 2) ^ 3 / 6) ^ 2) : (a + u) ^ 2 * q < 418.98289 := by
  have hG : 0 ≤ (1215243731589317624157092954341482567798227622714747089/5760000000000000000000000000000000000000000000000000) * u^0 + (4102536988597379422833558858586564858055760509/240000000000000000000000000000000000000000000) * u^1 + (-4952483276478274103651342202178043857717/288000000000000000000000000000000000000) * u^2 + (-23593538604495787127121554890477/14400000000000000000000000000000) * u^3 + (314130126724975874653963/960000000000000000000000) * u^4 + (1025876147417/28800000000000) * u^5 + (1/1152) * u^6 := by
    have e1 : u ^ 2 ≤ 4 := by nlinarith
    have e2 : u ^ 3 ≤ 8 := by nlinarith [mul_nonneg h0 h0]
    have e3 : 0 ≤ u ^ 4 := by positivity
    have e4 : 0 ≤ u ^ 5 := by positivity
    have e5 : 0 ≤ u ^ 6 := by positivity
    nlinarith
  have hF := mul_nonneg (sq_nonneg (u - 0.0971707)) hG
  by_cases hq0 : q ≤ 0
  · have : (a + u) ^ 2 * q ≤ 0 := mul_nonpos_of_nonneg_of_nonpos (sq_nonneg _) hq0
    linarith
  · push Not at hq0
    have h1 : (a + u) ^ 2 ≤ (20.42035224834 + u) ^ 2 := by
      apply pow_le_pow_left₀ (by linarith); linarith
    have h3 : (a + u) ^ 2 * q ≤ (20.42035224834 + u) ^ 2 * (1 - 2 * (u / 2 - (u / 2) ^ 3 / 6) ^ 2) :=
      mul_le_mul h1 hq hq0.le (sq_nonneg _)
    refine lt_of_le_of_lt h3 ?_
    nlinarith [hF]

theorem pi_bounds : 20.42035224833 < 13 * π / 2 ∧ 13 * π / 2 < 20.42035224834 := by
  have h1 := pi_gt_d20
  have h2 := pi_lt_d20
  constructor <;> linarith

theorem sin_shift (t : ℝ) : sin t = cos (t - 13 * π / 2) := by
  have h : t = (t - 13 * π / 2) + π / 2 + (3 : ℕ) * (2 * π) := by push_cast; ring
  conv_lhs => rw [h]
  rw [sin_add_nat_mul_two_pi, sin_add_pi_div_two]

/-- The maximum of `t² sin t` on `[0, √500]`, to eight digits. -/
theorem sq_mul_sin_lt {t : ℝ} (h0 : 0 ≤ t) (h : t ^ 2 ≤ 500) : t ^ 2 * sin t < 418.98289 := by
  by_cases hs : t ^ 2 ≤ 418.9
  · have := sin_le_one t
    nlinarith [sq_nonneg t]
  · push Not at hs
    have h1 : 20.46 ≤ t := by nlinarith
    have h2 : t ≤ 22.361 := by nlinarith
    obtain ⟨p1, p2⟩ := pi_bounds
    rw [sin_shift]
    have := poly_bound (a := 13 * π / 2) (u := t - 13 * π / 2) (by linarith) p2.le (by linarith)
      (by linarith) (cos_le_poly (by linarith) (by linarith))
    rwa [show 13 * π / 2 + (t - 13 * π / 2) = t by ring] at this

theorem neg_sq_mul_sin_lt {t : ℝ} (h0 : 0 ≤ t) (h : t ^ 2 ≤ 500) : -(t ^ 2 * sin t) < 418.98289 := by
  by_cases hs : t ^ 2 ≤ 418.9
  · have := neg_one_le_sin t
    nlinarith [sq_nonneg t]
  · push Not at hs
    have h1 : 20.46 ≤ t := by nlinarith
    have h2 : t ≤ 22.361 := by nlinarith
    obtain ⟨p1, p2⟩ := pi_bounds
    have hp := pi_gt_d20
    rw [sin_shift]
    have hc : -0.5 ≤ cos (t - 13 * π / 2) := by
      rw [← sin_pi_div_two_sub]
      by_cases hle : π / 2 - (t - 13 * π / 2) ≤ 0
      · have := le_sin hle
        have : 7 * π ≥ 21.99 := by linarith
        linarith [this]
      · push Not at hle
        have := sin_nonneg_of_nonneg_of_le_pi hle.le (by linarith)
        linarith
    nlinarith [sq_nonneg t]

theorem mul_sin_sqrt_lt {w : ℝ} (h0 : 0 ≤ w) (h : w ≤ 500) : w * sin (√ w) < 418.98289 := by
  have := sq_mul_sin_lt (sqrt_nonneg w) (by rw [sq_sqrt h0]; exact h)
  rwa [sq_sqrt h0] at this

theorem neg_mul_sin_sqrt_lt {w : ℝ} (h0 : 0 ≤ w) (h : w ≤ 500) : -(w * sin (√ w)) < 418.98289 := by
  have := neg_sq_mul_sin_lt (sqrt_nonneg w) (by rw [sq_sqrt h0]; exact h)
  rwa [sq_sqrt h0] at this

/-- The value at the point `420.9687462275036` used by the benchmark. -/
theorem mul_sin_sqrt_at : 418.98 < 420.9687462275036 * sin (√ 420.9687462275036) := by
  obtain ⟨p1, p2⟩ := pi_bounds
  have hs : 20.517 ≤ √ 420.9687462275036 ∧ √ 420.9687462275036 ≤ 20.51753 := by
    constructor
    · apply le_sqrt_of_sq_le; norm_num
    · rw [sqrt_le_left (by norm_num)]; norm_num
  rw [sin_shift]
  have := one_sub_sq_div_two_le_cos (x := √ 420.9687462275036 - 13 * π / 2)
  have h1 : (√ 420.9687462275036 - 13 * π / 2) ^ 2 ≤ 0.0971778 ^ 2 := by
    apply pow_le_pow_left₀ <;> linarith
  nlinarith

end Verif
