/-
Rounding errors of `np.random.choice` and of the learned probabilities.
-/
import Verif.Model.RoundCat
import Verif.Lemmas.Round
import Verif.Lemmas.Categorical
import Mathlib.Algebra.Order.Ring.Pow

set_option linter.unusedSectionVars false

namespace Verif

open Spec

section num
variable {K β : Type} [Field K] [LinearOrder K] [IsStrictOrderedRing K] [FloorRing K]

local notation "u" => ((2 : K) ^ (-53 : ℤ))
local notation "η" => ((2 : K) ^ (-1075 : ℤ))

theorem u_val : (u : K) = 1 / 2 ^ 53 := by
  rw [zpow_neg, one_div]; norm_cast

theorem u_small : (u : K) ≤ 1 / 1000 := by rw [u_val]; norm_num

/-- Probabilities as `np.random.choice` gets them: non-negative doubles. -/
def ProbList (p : List K) : Prop := ∀ x ∈ p, 0 ≤ x ∧ IsDouble x

theorem ProbList.sum_nonneg {p : List K} (h : ProbList p) : 0 ≤ p.sum := List.sum_nonneg (fun x hx => (h x hx).1)

theorem ProbList.tail {x : K} {p : List K} (h : ProbList (x :: p)) : ProbList p := fun y hy => h y (by simp [hy])

theorem ProbList.take {p : List K} (h : ProbList p) (i : ℕ) : ProbList (p.take i) :=
  fun x hx => h x (List.mem_of_mem_take hx)

/-! ### `kahan_sum` -/

theorem kahanLoop_error : ∀ (ps : List K) {s c S E : K}, IsDouble s → IsDouble c → |c| ≤ 11 * u → ProbList ps →
    |s - S| ≤ E → E + 20 * u * ps.length ≤ 1 → 0 ≤ S → S + ps.sum ≤ 2 →
    |kahanLoop fl64 s c ps - (S + ps.sum)| ≤ E + 20 * u * ps.length
  | [], s, c, S, E, _, _, _, _, hE, _, _, _ => by
    unfold kahanLoop
    simpa using hE
  | p :: ps, s, c, S, E, hs, hc, hcu, hp, hE, hE1, hS, hS2 => by
    unfold kahanLoop
    have hu0 := u_pos (K := K)
    have hu1 := u_small (K := K)
    obtain ⟨hp0, hpd⟩ := hp p (by simp)
    have hps := hp.tail.sum_nonneg
    simp only [List.sum_cons, List.length_cons, Nat.cast_add, Nat.cast_one] at hS2 hE1 ⊢
    have hlen : (0 : K) ≤ 20 * u * (ps.length : K) := by positivity
    have hE0 : 0 ≤ E := (abs_nonneg _).trans hE
    have habs : |s| ≤ 3 := by
      rw [abs_le] at hE ⊢
      constructor <;> linarith
    set y := fl64 (p - c) with hy
    have hpc : |p - c| ≤ 3 := by
      rw [abs_le] at hcu ⊢
      constructor <;> linarith
    have hye : |y - (p - c)| ≤ 3 * u := by
      have := fl64_error_grid ((onGrid_double hpd).sub (onGrid_double hc))
      have h2 := mul_le_mul_of_nonneg_left hpc hu0.le
      linarith
    have hyd : IsDouble y := fl64_double _
    have hya : |y| ≤ 3 := by
      rw [abs_le] at hcu hye ⊢
      constructor <;> linarith
    set t := fl64 (s + y) with ht
    have hsy : |s + y| ≤ 6 := (abs_add_le _ _).trans (by linarith)
    have hte : |t - (s + y)| ≤ 6 * u := by
      have := fl64_error_grid ((onGrid_double hs).add (onGrid_double hyd))
      have h2 := mul_le_mul_of_nonneg_left hsy hu0.le
      linarith
    have htd : IsDouble t := fl64_double _
    set d := fl64 (t - s) with hd
    have hts : |t - s| ≤ 4 := by
      rw [abs_le] at hte hya ⊢
      constructor <;> linarith
    have hde : |d - (t - s)| ≤ 4 * u := by
      have := fl64_error_grid ((onGrid_double htd).sub (onGrid_double hs))
      have h2 := mul_le_mul_of_nonneg_left hts hu0.le
      linarith
    have hdd : IsDouble d := fl64_double _
    have hdy : |d - y| ≤ 10 * u := by
      rw [abs_le] at hte hde ⊢
      constructor <;> linarith
    have hce : |fl64 (d - y)| ≤ 11 * u := by
      have h1 := fl64_error_grid ((onGrid_double hdd).sub (onGrid_double hyd))
      have h2 := mul_le_mul_of_nonneg_left hdy hu0.le
      have h3 : u * (10 * u) ≤ u := by
        have h4 := mul_le_mul_of_nonneg_left (show 10 * u ≤ (1 : K) by linarith) hu0.le
        rwa [mul_one] at h4
      rw [abs_le] at h1 hdy ⊢
      constructor <;> linarith
    have hnew : |t - (S + p)| ≤ E + 20 * u := by
      rw [abs_le] at hte hye hcu hE ⊢
      constructor <;> linarith
    have := kahanLoop_error ps htd (fl64_double _) hce hp.tail hnew (by linarith) (by linarith) (by linarith)
    rw [show S + (p + ps.sum) = S + p + ps.sum by ring]
    linarith

/-- `kahan_sum` of probabilities. -/
theorem kahanSum_error {p : List K} (hp : ProbList p) (hs : p.sum ≤ 2) (hl : p.length ≤ 2 ^ 22) :
    |kahanSum fl64 p - p.sum| ≤ 20 * u * p.length := by
  cases p with
  | nil => simp [kahanSum]
  | cons x ps =>
    unfold kahanSum
    obtain ⟨hx0, hxd⟩ := hp x (by simp)
    have hu0 := u_pos (K := K)
    have hl' : (ps.length : K) ≤ 2 ^ 22 := by
      have : ps.length ≤ 2 ^ 22 := by simp at hl; omega
      exact_mod_cast this
    have h1 := kahanLoop_error ps (S := x) (E := 0) hxd isDouble_zero (by rw [abs_zero]; positivity) hp.tail
      (by simp) (by
        have := mul_le_mul_of_nonneg_left hl' (by positivity : (0 : K) ≤ 20 * u)
        rw [u_val] at this ⊢
        norm_num at this ⊢
        linarith) hx0 (by simpa using hs)
    simp only [List.sum_cons, List.length_cons, Nat.cast_add, Nat.cast_one]
    linarith

/-! ### `cumsum` -/

theorem cumR_length (fl : K → K) : ∀ (s : K) (p : List K), (cumR fl s p).length = p.length
  | _, [] => rfl
  | s, x :: p => by simp [cumR, cumR_length fl _ p]

theorem round_rel {x : K} (hx : 0 ≤ x) (hg : OnGrid x) : (1 - u) * x ≤ fl64 x ∧ fl64 x ≤ (1 + u) * x := by
  have h := fl64_error_grid hg
  rw [abs_of_nonneg hx, abs_le] at h
  constructor <;> linarith

theorem cumR_bounds : ∀ (p : List K) {s : K} {i : ℕ} {x : K}, 0 ≤ s → IsDouble s → ProbList p →
    (cumR fl64 s p)[i]? = some x →
    (1 - u) ^ (i + 1) * (s + (p.take (i + 1)).sum) ≤ x ∧ x ≤ (1 + u) ^ (i + 1) * (s + (p.take (i + 1)).sum)
  | [], s, i, x, _, _, _, h => by simp [cumR] at h
  | y :: p, s, i, x, hs, hsd, hp, h => by
    unfold cumR at h
    obtain ⟨hy0, hyd⟩ := hp y (by simp)
    have hb := round_rel (add_nonneg hs hy0) ((onGrid_double hsd).add (onGrid_double hyd))
    have hu0 := u_pos (K := K)
    have hu1 := u_lt_one (K := K)
    cases i with
    | zero =>
      simp only [List.getElem?_cons_zero, Option.some.injEq] at h
      subst h
      simpa using hb
    | succ i =>
      rw [List.getElem?_cons_succ] at h
      have hn : 0 ≤ fl64 (s + y) := by
        have := fl64_mono (add_nonneg hs hy0); rwa [fl64_zero] at this
      obtain ⟨h1, h2⟩ := cumR_bounds p hn (fl64_double _) hp.tail h
      have hr : 0 ≤ (p.take (i + 1)).sum := (hp.tail.take _).sum_nonneg
      rw [List.take_succ_cons, List.sum_cons]
      constructor
      · refine le_trans ?_ h1
        rw [pow_succ (1 - u) (i + 1), mul_assoc]
        refine mul_le_mul_of_nonneg_left ?_ (one_sub_pow_le (K := K) _).2.le
        nlinarith
      · refine h2.trans ?_
        rw [pow_succ (1 + u) (i + 1), mul_assoc]
        refine mul_le_mul_of_nonneg_left ?_ (by positivity)
        nlinarith

theorem cumR_ge : ∀ (p : List K) {s : K}, 0 ≤ s → IsDouble s → ProbList p → ∀ x ∈ cumR fl64 s p, s ≤ x ∧ IsDouble x
  | [], s, _, _, _, x, hx => by simp [cumR] at hx
  | y :: p, s, hs, hsd, hp, x, hx => by
    unfold cumR at hx
    obtain ⟨hy0, hyd⟩ := hp y (by simp)
    have h1 : s ≤ fl64 (s + y) := by
      have := fl64_mono (show s ≤ s + y by linarith)
      rwa [fl64_fix hsd] at this
    rcases List.mem_cons.1 hx with rfl | hx
    · exact ⟨h1, fl64_double _⟩
    · obtain ⟨h2, h3⟩ := cumR_ge p (hs.trans h1) (fl64_double _) hp.tail x hx
      exact ⟨h1.trans h2, h3⟩

theorem cumR_sorted : ∀ (p : List K) {s : K}, 0 ≤ s → IsDouble s → ProbList p → (cumR fl64 s p).Pairwise (· ≤ ·)
  | [], s, _, _, _ => by simp [cumR]
  | y :: p, s, hs, hsd, hp => by
    unfold cumR
    obtain ⟨hy0, hyd⟩ := hp y (by simp)
    have hn : 0 ≤ fl64 (s + y) := by
      have := fl64_mono (add_nonneg hs hy0); rwa [fl64_zero] at this
    exact List.pairwise_cons.2 ⟨fun x hx => (cumR_ge p hn (fl64_double _) hp.tail x hx).1,
      cumR_sorted p hn (fl64_double _) hp.tail⟩

/-- The last cumulative sum. -/
theorem cumR_last {p : List K} (hne : p ≠ []) (hp : ProbList p) :
    ∃ T, (cumR fl64 0 p)[p.length - 1]? = some T ∧ (cumR fl64 0 p).getLastD 0 = T ∧
      (1 - u) ^ p.length * p.sum ≤ T ∧ T ≤ (1 + u) ^ p.length * p.sum ∧ ∀ x ∈ cumR fl64 0 p, x ≤ T := by
  have hlen : 0 < p.length := List.length_pos_iff.2 hne
  have hi : p.length - 1 < (cumR fl64 0 p).length := by rw [cumR_length]; omega
  have hget := List.getElem?_eq_getElem hi
  have hb := cumR_bounds p le_rfl isDouble_zero hp hget
  rw [show p.length - 1 + 1 = p.length by omega, List.take_length, zero_add] at hb
  refine ⟨_, hget, ?_, hb.1, hb.2, ?_⟩
  · have hc : cumR fl64 0 p ≠ [] := by
      intro h; rw [h] at hi; simp at hi
    rw [List.getLastD_eq_getLast?, List.getLast?_eq_some_getLast hc, Option.getD_some, List.getLast_eq_getElem]
    congr 1
    rw [cumR_length]
  · intro x hx
    obtain ⟨j, hj, rfl⟩ := List.mem_iff_getElem.1 hx
    have hj' : j ≤ p.length - 1 := by rw [cumR_length] at hj; omega
    rcases hj'.eq_or_lt with h | h
    · subst h; exact le_rfl
    · exact List.pairwise_iff_getElem.1 (cumR_sorted p le_rfl isDouble_zero hp) j _ hj hi h

/-! ### The cumulative distribution -/

theorem cdfR_length (fl : K → K) (p : List K) : (cdfR fl p).length = p.length := by
  unfold cdfR; rw [List.length_map, cumR_length]

theorem cdfR_get {p : List K} {i : ℕ} {c : K} (h : (cdfR fl64 p)[i]? = some c) :
    ∃ x, (cumR fl64 0 p)[i]? = some x ∧ c = fl64 (x / (cumR fl64 0 p).getLastD 0) := by
  unfold cdfR at h
  rw [List.getElem?_map] at h
  cases hx : (cumR fl64 0 p)[i]? with
  | none => rw [hx] at h; simp at h
  | some x => rw [hx] at h; exact ⟨x, rfl, by simpa using h.symm⟩

theorem cum_total_pos {p : List K} (hp : ProbList p) (hs : 0 < p.sum) : 0 < (cumR fl64 0 p).getLastD 0 := by
  have hne : p ≠ [] := by rintro rfl; simp at hs
  obtain ⟨T, _, hT, h1, _⟩ := cumR_last hne hp
  rw [hT]
  exact lt_of_lt_of_le (mul_pos (one_sub_pow_le (K := K) _).2 hs) h1

theorem cdfR_sorted {p : List K} (hp : ProbList p) (hs : 0 < p.sum) : (cdfR fl64 p).Pairwise (· ≤ ·) := by
  unfold cdfR
  have hT := cum_total_pos hp hs
  exact (cumR_sorted p le_rfl isDouble_zero hp).map _ (fun a b hab => fl64_mono (div_le_div_of_nonneg_right hab hT.le))

theorem cdfR_unit {p : List K} (hp : ProbList p) (hs : 0 < p.sum) : ∀ c ∈ cdfR fl64 p, 0 ≤ c ∧ c ≤ 1 := by
  intro c hc
  obtain ⟨i, hi⟩ := List.mem_iff_getElem?.1 hc
  obtain ⟨x, hx, rfl⟩ := cdfR_get hi
  have hne : p ≠ [] := by rintro rfl; simp at hs
  obtain ⟨T, _, hT, _, _, hle⟩ := cumR_last hne hp
  have hT0 := cum_total_pos hp hs
  have hx0 := (cumR_ge p le_rfl isDouble_zero hp x (List.mem_of_getElem? hx)).1
  constructor
  · have := fl64_mono (div_nonneg hx0 hT0.le); rwa [fl64_zero] at this
  · have h1 : x / (cumR fl64 0 p).getLastD 0 ≤ ((1 : ℤ) : K) := by
      rw [Int.cast_one, div_le_one hT0, hT]; exact hle x (List.mem_of_getElem? hx)
    have := fl64_mono h1
    rwa [fl64_int (by norm_num), Int.cast_one] at this

theorem cdfR_last {p : List K} (hp : ProbList p) (hs : 0 < p.sum) : (cdfR fl64 p)[p.length - 1]? = some 1 := by
  have hne : p ≠ [] := by rintro rfl; simp at hs
  obtain ⟨T, hg, hT, _⟩ := cumR_last hne hp
  have hT0 := cum_total_pos hp hs
  unfold cdfR
  rw [List.getElem?_map, hg, hT, Option.map_some]
  rw [hT] at hT0
  have := fl64_int (K := K) (n := 1) (by norm_num)
  rw [Int.cast_one] at this
  rw [div_self hT0.ne', this]

/-- Powers of `1 ± w`. -/
theorem pow_ratio_aux {w : K} (h0 : 0 < w) (h1 : w ≤ 1) (k : ℕ) (hku : (k : K) * w ≤ 1 / 4) (hb : 0 < (1 - w) ^ k) :
    (1 + w) ^ k ≤ (1 + 4 * k * w) * (1 - w) ^ k := by
  have h1 : 1 - (k : K) * w ≤ (1 - w) ^ k := by
    have := one_add_mul_le_pow (R := K) (a := -w) (by linarith) k
    rw [← sub_eq_add_neg] at this
    linarith
  have h2 : (1 + w) ^ k * (1 - w) ^ k ≤ 1 := by
    rw [← mul_pow]
    exact pow_le_one₀ (by nlinarith) (by nlinarith)
  have hk0 : (0 : K) ≤ k * w := by positivity
  rw [mul_assoc 4]
  generalize (1 - w) ^ k = B at *
  generalize (1 + w) ^ k = A at *
  generalize (k : K) * w = z at *
  have h3 : 1 ≤ (1 + 4 * z) * B * B := by
    have h4 : (1 - z) * (1 - z) ≤ B * B := mul_le_mul h1 h1 (by linarith) hb.le
    have h5 := mul_le_mul_of_nonneg_left h4 (by positivity : (0 : K) ≤ 1 + 4 * z)
    rw [mul_assoc]
    refine le_trans ?_ h5
    nlinarith [mul_nonneg hk0 hk0, mul_nonneg hk0 (by linarith : (0 : K) ≤ 1 / 4 - z),
      mul_nonneg (mul_nonneg hk0 hk0) hk0]
  exact le_of_mul_le_mul_right (h2.trans h3) hb

theorem pow_ratio (k : ℕ) (hk : k ≤ 2 ^ 50) :
    (1 + u : K) ^ k ≤ (1 + 4 * k * u) * (1 - u) ^ k := by
  have hu0 := u_pos (K := K)
  have hku : (k : K) * u ≤ 1 / 4 := by
    have h : (k : K) ≤ 2 ^ 50 := by exact_mod_cast hk
    have := mul_le_mul_of_nonneg_right h hu0.le
    rw [u_val] at this ⊢
    norm_num at this ⊢
    linarith
  exact pow_ratio_aux hu0 u_lt_one.le k hku (one_sub_pow_le (K := K) k).2

/-- The rounded cumulative distribution is close to the exact one. -/
theorem cdfR_error {p : List K} (hp : ProbList p) (hs : 0 < p.sum) (hl : p.length ≤ 2 ^ 50) {i : ℕ} {c : K}
    (hc : (cdfR fl64 p)[i]? = some c) :
    |c - (p.take (i + 1)).sum / p.sum| ≤ 4 * p.length * u + 2 ^ (-54 : ℤ) := by
  obtain ⟨x, hx, rfl⟩ := cdfR_get hc
  have hne : p ≠ [] := by rintro rfl; simp at hs
  obtain ⟨T, _, hT, hT1, hT2, hle⟩ := cumR_last hne hp
  have hT0 := cum_total_pos hp hs
  rw [hT] at hT0 ⊢
  have hxm := List.mem_of_getElem? hx
  have hx0 := (cumR_ge p le_rfl isDouble_zero hp x hxm).1
  have hxT := hle x hxm
  have hil : i + 1 ≤ p.length := by
    have := (List.getElem?_eq_some_iff.1 hx).1
    rw [cumR_length] at this; omega
  obtain ⟨hb1, hb2⟩ := cumR_bounds p le_rfl isDouble_zero hp hx
  rw [zero_add] at hb1 hb2
  set S := (p.take (i + 1)).sum with hS
  have hS0 : 0 ≤ S := (hp.take _).sum_nonneg
  have hSle : S ≤ p.sum := by
    have h1 : p.sum = S + (p.drop (i + 1)).sum := by
      rw [hS, ← List.sum_append, List.take_append_drop]
    have h2 : 0 ≤ (p.drop (i + 1)).sum := List.sum_nonneg (fun y hy => (hp y (List.mem_of_mem_drop hy)).1)
    linarith
  set A : K := (1 + u) ^ p.length with hA
  set B : K := (1 - u) ^ p.length with hB
  have hu0 := u_pos (K := K)
  have hB0 : 0 < B := (one_sub_pow_le (K := K) _).2
  have hA1 : 1 ≤ A := one_le_pow_u _
  have hxlo : B * S ≤ x := by
    refine le_trans (mul_le_mul_of_nonneg_right ?_ hS0) hb1
    exact pow_le_pow_of_le_one (by linarith [u_lt_one (K := K)]) (by linarith) hil
  have hxhi : x ≤ A * S := by
    refine hb2.trans (mul_le_mul_of_nonneg_right ?_ hS0)
    exact pow_le_pow_right₀ (by linarith) hil
  have hAB : A ≤ (1 + 4 * p.length * u) * B := pow_ratio _ hl
  set δ : K := 4 * p.length * u with hδ
  have hδ0 : 0 ≤ δ := by positivity
  have hq0 : 0 ≤ x / T := div_nonneg hx0 hT0.le
  have hq1 : x / T ≤ 1 := (div_le_one hT0).2 hxT
  have hr1 : S / p.sum ≤ 1 := (div_le_one hs).2 hSle
  have hr0 : 0 ≤ S / p.sum := div_nonneg hS0 hs.le
  have hup : x / T ≤ (1 + δ) * (S / p.sum) := by
    rw [div_le_iff₀ hT0]
    have h1 : (1 + δ) * (S / p.sum) * (B * p.sum) ≤ (1 + δ) * (S / p.sum) * T :=
      mul_le_mul_of_nonneg_left hT1 (by positivity)
    have h2 : (1 + δ) * (S / p.sum) * (B * p.sum) = (1 + δ) * B * S := by field_simp
    have h3 := mul_le_mul_of_nonneg_right hAB hS0
    linarith
  have hlo : S / p.sum ≤ (1 + δ) * (x / T) := by
    rw [div_le_iff₀ hs, mul_assoc, div_mul_eq_mul_div, mul_div_assoc', le_div_iff₀ hT0]
    have h1 : S * T ≤ S * (A * p.sum) := mul_le_mul_of_nonneg_left hT2 hS0
    have h2 : S * (A * p.sum) ≤ S * ((1 + δ) * B * p.sum) :=
      mul_le_mul_of_nonneg_left (mul_le_mul_of_nonneg_right hAB hs.le) hS0
    have h3 : (1 + δ) * p.sum * (B * S) ≤ (1 + δ) * p.sum * x := mul_le_mul_of_nonneg_left hxlo (by positivity)
    nlinarith
  have hmain : |x / T - S / p.sum| ≤ δ := by
    rw [abs_le]
    constructor
    · nlinarith
    · nlinarith
  have hfl := fl64_unit hq0 hq1
  rw [abs_sub_comm] at hfl
  calc |fl64 (x / T) - S / p.sum| ≤ |fl64 (x / T) - x / T| + |x / T - S / p.sum| := abs_sub_le _ _ _
    _ ≤ δ + 2 ^ (-54 : ℤ) := by linarith

/-! ### Picking a value -/

/-- The position found for a draw. -/
theorem pickR_iff {p : List K} {x : K} {i : ℕ} :
    (cdfR fl64 p).findIdx (fun c => decide (x < c)) = i ∧ i < p.length ↔
      ∃ c, (cdfR fl64 p)[i]? = some c ∧ x < c ∧ ∀ j < i, ∀ d, (cdfR fl64 p)[j]? = some d → d ≤ x := by
  have hl := cdfR_length fl64 p
  constructor
  · rintro ⟨h, hi⟩
    have hi' : i < (cdfR fl64 p).length := by omega
    rw [List.findIdx_eq hi'] at h
    refine ⟨_, List.getElem?_eq_getElem hi', by simpa using h.1, ?_⟩
    intro j hj d hd
    obtain ⟨_, rfl⟩ := List.getElem?_eq_some_iff.1 hd
    simpa using h.2 j hj
  · rintro ⟨c, hc, hx, hj⟩
    obtain ⟨hi', rfl⟩ := List.getElem?_eq_some_iff.1 hc
    refine ⟨(List.findIdx_eq hi').2 ⟨by simpa using hx, ?_⟩, by omega⟩
    intro j hji
    simpa using hj j hji _ (List.getElem?_eq_getElem (by omega))

/-- A draw below 1 always finds a position, with positive probability. -/
theorem pickR_exists {p : List K} {x : K} (hp : ProbList p) (hs : 0 < p.sum) (hx0 : 0 ≤ x) (hx1 : x < 1) :
    (cdfR fl64 p).findIdx (fun c => decide (x < c)) < p.length ∧
    ∀ q, p[(cdfR fl64 p).findIdx (fun c => decide (x < c))]? = some q → 0 < q := by
  have hl := cdfR_length fl64 p
  have hlast := cdfR_last hp hs
  have hi : (cdfR fl64 p).findIdx (fun c => decide (x < c)) < p.length := by
    rw [← hl, List.findIdx_lt_length]
    exact ⟨1, List.mem_of_getElem? hlast, by simpa using hx1⟩
  refine ⟨hi, ?_⟩
  set i := (cdfR fl64 p).findIdx (fun c => decide (x < c)) with hidef
  obtain ⟨c, hc, hxc, hj⟩ := pickR_iff.1 ⟨hidef.symm, hi⟩
  intro q hq
  refine lt_of_le_of_ne (hp q (List.mem_of_getElem? hq)).1 ?_
  intro h0
  -- the cumulative sum does not change at a zero
  obtain ⟨y, hy, rfl⟩ := cdfR_get hc
  cases hi0 : i with
  | zero =>
    rw [hi0] at hy hq
    cases p with
    | nil => simp at hq
    | cons a p =>
      simp only [List.getElem?_cons_zero, Option.some.injEq] at hq
      unfold cumR at hy
      simp only [List.getElem?_cons_zero, Option.some.injEq] at hy
      rw [hq, ← h0, add_zero, fl64_zero] at hy
      rw [← hy, zero_div, fl64_zero] at hxc
      linarith
  | succ k =>
    have key : ∀ (p : List K) (s : K) (k : ℕ) (y : K), p[k + 1]? = some 0 → (cumR fl64 s p)[k + 1]? = some y →
        (cumR fl64 s p)[k]? = some y := by
      intro p
      induction p with
      | nil => intro s k y h; simp at h
      | cons a p ih =>
        intro s k y h1 h2
        unfold cumR at h2 ⊢
        rw [List.getElem?_cons_succ] at h1 h2
        cases k with
        | zero =>
          cases p with
          | nil => simp at h1
          | cons b p =>
            simp only [List.getElem?_cons_zero, Option.some.injEq] at h1
            unfold cumR at h2
            simp only [List.getElem?_cons_zero, Option.some.injEq] at h2
            rw [h1, add_zero, fl64_fix (fl64_double _)] at h2
            simpa using h2
        | succ k =>
          rw [List.getElem?_cons_succ]
          exact ih _ k y h1 h2
    rw [hi0] at hy hq
    have hy' := key p 0 k y (by rw [hq, ← h0]) hy
    have hk : (cdfR fl64 p)[k]? = some (fl64 (y / (cumR fl64 0 p).getLastD 0)) := by
      unfold cdfR; rw [List.getElem?_map, hy']; rfl
    have := hj k (by omega) _ hk
    linarith

theorem pickValR_ok {vals : List β} {p : List K} {x : K} (hl : vals.length = p.length) (hp : ProbList p)
    (hs : 0 < p.sum) (hx : 0 ≤ x ∧ x < 1) :
    ∃ (i : ℕ) (v : β) (q : K), pickValR fl64 vals p x = .ok v ∧ vals[i]? = some v ∧ p[i]? = some q ∧ 0 < q := by
  obtain ⟨h1, h2⟩ := pickR_exists hp hs hx.1 hx.2
  have h1' : (cdfR fl64 p).findIdx (fun c => decide (x < c)) < vals.length := by omega
  refine ⟨_, _, _, ?_, List.getElem?_eq_getElem h1', List.getElem?_eq_getElem h1, h2 _ (List.getElem?_eq_getElem h1)⟩
  unfold pickValR
  rw [List.getElem?_eq_getElem h1']

/-! ### `np.random.choice` -/

theorem isDouble_pow (k : ℤ) (hk : -1074 ≤ k) : IsDouble ((2 : K) ^ k) := by
  refine ⟨1, k, by norm_num, hk, ?_⟩
  simp

theorem fl64_abs_le {x b : K} (hb : IsDouble b) (h : |x| ≤ b) : |fl64 x| ≤ b := by
  rw [abs_le] at h ⊢
  have h1 := fl64_mono h.1
  have h2 := fl64_mono h.2
  rw [fl64_fix hb] at h2
  rw [fl64_fix hb.neg] at h1
  exact ⟨h1, h2⟩

/-- The check of `np.random.choice` accepts probabilities that sum to 1 up to `2^-27`. -/
theorem kahan_accepts {p : List K} (hp : ProbList p) (hl : p.length ≤ 2 ^ 21) (hs : |p.sum - 1| ≤ 1 / 2 ^ 27) :
    |fl64 (kahanSum fl64 p - 1)| ≤ 1 / 2 ^ 26 := by
  have hd : IsDouble ((1 : K) / 2 ^ 26) := by
    have := isDouble_pow (K := K) (-26) (by norm_num)
    have e : (1 : K) / 2 ^ 26 = 2 ^ (-26 : ℤ) := by rw [zpow_neg, one_div]; norm_cast
    rwa [e]
  refine fl64_abs_le hd ?_
  have hs' := abs_le.1 hs
  have h1 := kahanSum_error hp (by have : (1 : K) / 2 ^ 27 ≤ 1 := by norm_num
                                   linarith) (hl.trans (by norm_num))
  have h2 : (p.length : K) ≤ 2 ^ 21 := by exact_mod_cast hl
  have h3 := mul_le_mul_of_nonneg_left h2 (by have := u_pos (K := K); positivity : (0 : K) ≤ 20 * u)
  have h4 : |kahanSum fl64 p - 1| ≤ 20 * u * p.length + 1 / 2 ^ 27 := by
    calc |kahanSum fl64 p - 1| ≤ |kahanSum fl64 p - p.sum| + |p.sum - 1| := abs_sub_le _ _ _
      _ ≤ _ := add_le_add h1 hs
  refine h4.trans ?_
  have h5 : (20 * u * 2 ^ 21 : K) + 1 / 2 ^ 27 ≤ 1 / 2 ^ 26 := by
    rw [u_val]; norm_num
  linarith

/-- The sum of what it accepts is positive. -/
theorem kahan_pos {p : List K} (hp : ProbList p) (h : |fl64 (kahanSum fl64 p - 1)| ≤ 1 / 2 ^ 26) : 0 < p.sum := by
  refine lt_of_le_of_ne hp.sum_nonneg ?_
  intro h0
  have hz : ∀ (p : List K), ProbList p → p.sum = 0 → ∀ x ∈ p, x = 0 := by
    intro p hp hs
    induction p with
    | nil => simp
    | cons a p ih =>
      rw [List.sum_cons] at hs
      have h1 := (hp a (by simp)).1
      have h2 := hp.tail.sum_nonneg
      intro x hx
      rcases List.mem_cons.1 hx with rfl | hx
      · linarith
      · exact ih hp.tail (by linarith) x hx
  have hz' := hz p hp h0.symm
  have hloop : ∀ l : List K, (∀ x ∈ l, x = 0) → kahanLoop fl64 0 0 l = 0 := by
    intro l hl
    induction l with
    | nil => rfl
    | cons a l ih =>
      unfold kahanLoop
      rw [hl a (by simp)]
      simp only [sub_zero, add_zero, fl64_zero]
      exact ih (fun x hx => hl x (by simp [hx]))
  have hk : kahanSum fl64 p = 0 := by
    cases p with
    | nil => rfl
    | cons a p =>
      unfold kahanSum
      rw [hz' a (by simp)]
      exact hloop p (fun x hx => hz' x (by simp [hx]))
  have h1 : fl64 ((0 : K) - 1) = -1 := by
    have := fl64_int (K := K) (n := -1) (by norm_num)
    simpa using this
  rw [hk, h1, abs_neg, abs_one] at h
  norm_num at h

theorem npChoiceR_ok {fl : K → K} {vals : List β} {p : List K} {size : ℤ} {x : ℕ → K} {col : List β}
    (h : npChoiceR fl vals p size x = .ok col) :
    0 ≤ size ∧ vals.length = p.length ∧ (∀ y ∈ p, 0 ≤ y) ∧ |fl (kahanSum fl p - 1)| ≤ 1 / 2 ^ 26 ∧
    col.length = size.toNat ∧ ∀ i v, col[i]? = some v → pickValR fl vals p (x i) = .ok v := by
  unfold npChoiceR at h
  split at h
  · cases h
  split at h
  · cases h
  rename_i h2
  split at h
  · cases h
  rename_i h3
  split at h
  · cases h
  rename_i h4
  split at h
  · cases h
  rename_i h5
  refine ⟨not_lt.1 h5, by simpa using h2, ?_, not_lt.1 h4, ?_, ?_⟩
  · simpa using h3
  · rw [mapME_length h, List.length_range]
  · intro i v hv
    obtain ⟨a, ha, hf⟩ := mapME_get h hv
    obtain ⟨hi, rfl⟩ := List.getElem?_eq_some_iff.1 ha
    rw [List.getElem_range] at hf
    exact hf

theorem npChoiceR_isOk {vals : List β} {p : List K} {size : ℤ} {x : ℕ → K} (hsz : 0 ≤ size)
    (hl : vals.length = p.length) (hp : ProbList p) (hs : |fl64 (kahanSum fl64 p - 1)| ≤ 1 / 2 ^ 26)
    (hx : ∀ i, 0 ≤ x i ∧ x i < 1) : ∃ col, npChoiceR fl64 vals p size x = .ok col := by
  have hpos := kahan_pos hp hs
  have hne : vals.length ≠ 0 := by
    intro h0
    have : p = [] := List.length_eq_zero_iff.1 (by omega)
    simp [this] at hpos
  unfold npChoiceR
  rw [if_neg (fun h => hne h.1), if_neg (by simpa using hl), if_neg (by simpa using fun y hy => (hp y hy).1),
    if_neg (not_lt.2 hs), if_neg (not_lt.2 hsz)]
  apply mapME_isOk
  intro i _
  obtain ⟨_, v, _, h, _⟩ := pickValR_ok hl hp hpos (hx i)
  exact ⟨v, h⟩

/-- Every sampled value is a possible value with positive frequency. -/
theorem npChoiceR_values {vals : List β} {p : List K} {size : ℤ} {x : ℕ → K} {col : List β}
    (h : npChoiceR fl64 vals p size x = .ok col) (hd : ∀ y ∈ p, IsDouble y) (hx : ∀ i, 0 ≤ x i ∧ x i < 1)
    {v : β} (hv : v ∈ col) : ∃ (i : ℕ) (q : K), vals[i]? = some v ∧ p[i]? = some q ∧ 0 < q := by
  obtain ⟨_, hl, h0, hs, _, hc⟩ := npChoiceR_ok h
  have hp : ProbList p := fun y hy => ⟨h0 y hy, hd y hy⟩
  obtain ⟨i, hi⟩ := List.mem_iff_getElem?.1 hv
  obtain ⟨k, w, q, h1, h2, h3, h4⟩ := pickValR_ok hl hp (kahan_pos hp hs) (hx i)
  rw [hc i v hi] at h1
  obtain rfl := Except.ok.inj h1
  exact ⟨k, q, h2, h3, h4⟩

/-- Rounding the summands. -/
theorem sum_round_error : ∀ (q : List K), (∀ x ∈ q, 0 ≤ x) →
    |(q.map fl64).sum - q.sum| ≤ u * q.sum + q.length * η
  | [], _ => by simp
  | x :: q, h => by
    have ih := sum_round_error q (fun y hy => h y (by simp [hy]))
    have hx := fl64_error x
    rw [abs_of_nonneg (h x (by simp))] at hx
    simp only [List.map_cons, List.sum_cons, List.length_cons, Nat.cast_add, Nat.cast_one]
    have : fl64 x + (q.map fl64).sum - (x + q.sum) = (fl64 x - x) + ((q.map fl64).sum - q.sum) := by ring
    rw [this]
    exact (abs_add_le _ _).trans (by linarith)

theorem eta_small {k : ℕ} (hk : k ≤ 2 ^ 50) : (k : K) * η ≤ u / 1000 := by
  have h : (k : K) ≤ 2 ^ 50 := by exact_mod_cast hk
  have h1 := mul_le_mul_of_nonneg_right h (eta_pos (K := K)).le
  refine h1.trans ?_
  have h2 : (2 : K) ^ 50 * η = 2 ^ (-1025 : ℤ) := by
    rw [← zpow_natCast (2 : K) 50, ← zpow_add₀ (by norm_num)]; norm_num
  have h3 : (2 : K) ^ (-1025 : ℤ) ≤ 2 ^ (-63 : ℤ) := zpow_le_zpow_right₀ (by norm_num) (by norm_num)
  have h4 : (2 : K) ^ (-63 : ℤ) = u / 1024 := by
    rw [show (-63 : ℤ) = -53 + -10 by norm_num, zpow_add₀ (by norm_num)]; norm_num
  rw [h2]
  have := u_pos (K := K)
  refine h3.trans ?_
  rw [h4]
  exact div_le_div_of_nonneg_left this.le (by norm_num) (by norm_num)

/-- The cumulative distribution of rounded probabilities. -/
theorem cdfR_round_error {q : List K} (hq : ∀ x ∈ q, 0 ≤ x) (h1 : q.sum = 1) (hl : q.length ≤ 2 ^ 50) {i : ℕ}
    {c : K} (hc : (cdfR fl64 (q.map fl64))[i]? = some c) :
    |c - (q.take (i + 1)).sum| ≤ (q.length + 1) * 2 ^ (-51 : ℤ) := by
  have hu0 := u_pos (K := K)
  have hu1 := u_small (K := K)
  have hp : ProbList (q.map fl64) := by
    intro x hx
    obtain ⟨y, hy, rfl⟩ := List.mem_map.1 hx
    refine ⟨?_, fl64_double _⟩
    have := fl64_mono (hq y hy); rwa [fl64_zero] at this
  have he := eta_small (K := K) hl
  have hS := sum_round_error q hq
  rw [h1] at hS
  have hQ0 : 0 ≤ (q.take (i + 1)).sum := List.sum_nonneg (fun x hx => hq x (List.mem_of_mem_take hx))
  have hQ1 : (q.take (i + 1)).sum ≤ 1 := by
    have e1 : q.sum = (q.take (i + 1)).sum + (q.drop (i + 1)).sum := by
      rw [← List.sum_append, List.take_append_drop]
    have h2 : 0 ≤ (q.drop (i + 1)).sum := List.sum_nonneg (fun y hy => hq y (List.mem_of_mem_drop hy))
    linarith
  have hSi := sum_round_error (q.take (i + 1)) (fun x hx => hq x (List.mem_of_mem_take hx))
  have hlen : ((q.take (i + 1)).length : K) * η ≤ q.length * η := by
    refine mul_le_mul_of_nonneg_right ?_ (eta_pos (K := K)).le
    exact_mod_cast List.length_take_le' _ _
  have hSi' : |((q.take (i + 1)).map fl64).sum - (q.take (i + 1)).sum| ≤ u + u / 1000 := by
    have h3 := mul_le_mul_of_nonneg_left hQ1 hu0.le
    rw [mul_one] at h3
    exact hSi.trans (add_le_add h3 (hlen.trans he))
  have hS' : |(q.map fl64).sum - 1| ≤ u + u / 1000 := by
    rw [mul_one] at hS
    exact hS.trans (add_le_add le_rfl he)
  have hpos : 0 < (q.map fl64).sum := by
    have := (abs_le.1 hS').1
    linarith
  have hcd := cdfR_error hp hpos (by simpa using hl) hc
  rw [List.length_map, ← List.map_take] at hcd
  have hw : (2 : K) ^ (-54 : ℤ) = u / 2 := by
    rw [show (-54 : ℤ) = -53 + -1 by norm_num, zpow_add₀ (by norm_num)]; norm_num
  have hv : (2 : K) ^ (-51 : ℤ) = 4 * u := by
    rw [show (-51 : ℤ) = -53 + 2 by norm_num, zpow_add₀ (by norm_num)]; norm_num
  rw [hw] at hcd
  rw [hv]
  have hmid : |((q.take (i + 1)).map fl64).sum / (q.map fl64).sum - (q.take (i + 1)).sum| ≤ 3 * u := by
    generalize ((q.take (i + 1)).map fl64).sum = a at *
    generalize (q.map fl64).sum = b at *
    generalize (q.take (i + 1)).sum = F at *
    generalize (2 : K) ^ (-53 : ℤ) = w at *
    rw [show a / b - F = (a - F * b) / b by field_simp, abs_div, abs_of_pos hpos, div_le_iff₀ hpos]
    have e1 : a - F * b = (a - F) + F * (1 - b) := by ring
    rw [e1]
    have e2 : |F * (1 - b)| ≤ w + w / 1000 := by
      rw [abs_mul, abs_of_nonneg hQ0, abs_sub_comm]
      calc F * |b - 1| ≤ 1 * |b - 1| := mul_le_mul_of_nonneg_right hQ1 (abs_nonneg _)
        _ ≤ _ := by linarith
    have e3 : 999 / 1000 ≤ b := by
      have := (abs_le.1 hS').1
      linarith
    refine (abs_add_le _ _).trans ?_
    nlinarith
  calc |c - (q.take (i + 1)).sum| ≤ |c - ((q.take (i + 1)).map fl64).sum / (q.map fl64).sum| +
        |((q.take (i + 1)).map fl64).sum / (q.map fl64).sum - (q.take (i + 1)).sum| := abs_sub_le _ _ _
    _ ≤ (4 * q.length * u + u / 2) + 3 * u := add_le_add hcd hmid
    _ ≤ (q.length + 1) * (4 * u) := by linarith

end num

/-! ### Learning -/

section learn
variable {α K L : Type} [LinearOrder α] [Field K] [LinearOrder K]

theorem obtainR_eq (fl : K → K) (col : List (Cat α)) :
    obtainProbabilitiesR fl col = (obtainProbabilities col).map (List.map (fun x => (x.1, fl x.2))) := by
  unfold obtainProbabilitiesR obtainProbabilities
  split
  · simp [Except.map, Function.comp_def]
  · rfl

theorem obtainR_ok {fl : K → K} {col : List (Cat α)} {t : List (Cat α × K)} (h : obtainProbabilitiesR fl col = .ok t) :
    ∃ t0, obtainProbabilities col = .ok t0 ∧ t = t0.map (fun x => (x.1, fl x.2)) := by
  rw [obtainR_eq] at h
  cases h0 : obtainProbabilities (K := K) col with
  | error err => rw [h0] at h; cases h
  | ok t0 => rw [h0] at h; exact ⟨t0, rfl, (Except.ok.inj h).symm⟩

variable [DecidableEq L]

theorem learnCatsR_ok {fl : K → K} {data : Gen (List (Cat α))} {ls : List L} :
    ∀ {i : ℕ} {tbl tbl' : L → Option (List (Cat α × K))}, ls.Nodup →
    learnCatsR fl data i ls tbl = .ok tbl' →
    (∀ k l, ls[k]? = some l → i + k < data.cols ∧ ∃ t, tbl' l = some t ∧
      obtainProbabilitiesR fl (column data.rows (i + k)) = .ok t) ∧ ∀ l, l ∉ ls → tbl' l = tbl l := by
  induction ls with
  | nil =>
    intro i tbl tbl' _ h
    unfold learnCatsR at h
    obtain rfl := Except.ok.inj h
    exact ⟨fun k l h => by simp at h, fun _ _ => rfl⟩
  | cons a ls ih =>
    intro i tbl tbl' hnd h
    unfold learnCatsR at h
    split at h
    · cases h
    rename_i hc
    split at h
    · cases h
    rename_i probs hp
    obtain ⟨ha, hnd⟩ := List.nodup_cons.1 hnd
    obtain ⟨h1, h2⟩ := ih hnd h
    constructor
    · intro k l hk
      cases k with
      | zero =>
        simp only [List.getElem?_cons_zero, Option.some.injEq] at hk
        subst hk
        refine ⟨by omega, probs, ?_, hp⟩
        rw [h2 a ha, Function.update_self]
      | succ k =>
        rw [List.getElem?_cons_succ] at hk
        obtain ⟨c1, c2⟩ := h1 k l hk
        have e1 : i + 1 + k = i + (k + 1) := by ring
        rw [e1] at c1 c2
        exact ⟨c1, c2⟩
    · intro l hl
      rw [List.mem_cons, not_or] at hl
      rw [h2 l hl.2, Function.update_of_ne hl.1]

theorem learnCatsR_isOk {fl : K → K} {data : Gen (List (Cat α))} {ls : List L} :
    ∀ {i : ℕ} {tbl : L → Option (List (Cat α × K))}, i + ls.length ≤ data.cols →
    (∀ k < ls.length, SameType (column data.rows (i + k))) →
    ∃ tbl', learnCatsR fl data i ls tbl = .ok tbl' := by
  induction ls with
  | nil => intro i tbl _ _; exact ⟨tbl, rfl⟩
  | cons a ls ih =>
    intro i tbl hc hs
    unfold learnCatsR
    simp only [List.length_cons] at hc hs
    rw [if_neg (by omega)]
    have h0 := hs 0 (by omega)
    unfold column at h0
    simp only [Nat.add_zero] at h0
    rw [obtainR_eq, obtain_isOk h0]
    apply ih (by omega)
    intro k hk
    have := hs (k + 1) (by omega)
    have e1 : i + 1 + k = i + (k + 1) := by ring
    rw [e1]; exact this

theorem UniCat.learnR_ok {fl : K → K} {c c' : UniCat L α K} {data : Gen (List (Cat α))} (hn : c.vars.Nodup)
    (h : c.learnR fl data = .ok c') : c'.vars = c.vars ∧ c.vars.length ≤ data.cols ∧
    (∀ k l, c.vars[k]? = some l → ∃ t, c'.table l = some t ∧
      obtainProbabilitiesR fl (column data.rows k) = .ok t) ∧
    ∀ l, l ∉ c.vars → c'.table l = c.table l := by
  unfold UniCat.learnR at h
  split at h
  · cases h
  rename_i tbl htbl
  obtain rfl := Except.ok.inj h
  obtain ⟨h1, h2⟩ := learnCatsR_ok hn htbl
  refine ⟨rfl, ?_, ?_, h2⟩
  · by_contra hc
    have hlt : c.vars.length - 1 < c.vars.length := by omega
    have := (h1 _ _ (List.getElem?_eq_getElem hlt)).1
    omega
  · intro k l hk
    have := (h1 k l hk).2
    rwa [Nat.zero_add] at this

theorem UniCat.learnR_isOk {fl : K → K} {c : UniCat L α K} {data : Gen (List (Cat α))}
    (hc : c.vars.length ≤ data.cols)
    (hs : ∀ k < c.vars.length, SameType (column data.rows k)) : ∃ c', c.learnR fl data = .ok c' := by
  obtain ⟨tbl', h⟩ := learnCatsR_isOk (fl := fl) (i := 0) (tbl := c.table)
    (by omega : 0 + c.vars.length ≤ data.cols) (fun k hk => by rw [Nat.zero_add]; exact hs k hk)
  exact ⟨_, by unfold UniCat.learnR; rw [h]⟩

end learn

/-! ### Sampling -/

section sample
variable {α K L : Type} [LinearOrder α] [Field K] [LinearOrder K] [IsStrictOrderedRing K] [FloorRing K]
  [DecidableEq L]

theorem UniCat.sampleColR_ok {fl : K → K} {c : UniCat L α K} {size : ℤ} {ω : Draws K} {j : ℕ} {l : L}
    {d : DType} {col : List (Cat α)} (h : c.sampleColR fl size ω j l = .ok (d, col)) :
    ∃ t, c.table l = some t ∧ listDType (t.map Prod.fst) = .ok d ∧
      npChoiceR fl (t.map Prod.fst) (t.map Prod.snd) size (fun i => ω i j) = .ok col := by
  unfold UniCat.sampleColR at h
  split at h
  · cases h
  rename_i t ht
  split at h
  · cases h
  rename_i dt hdt
  split at h
  · cases h
  rename_i col' hcol
  have := Except.ok.inj h
  simp only [Prod.mk.injEq] at this
  obtain ⟨rfl, rfl⟩ := this
  exact ⟨t, ht, hdt, hcol⟩

/-- What `sample` returns in double precision. -/
theorem UniCat.sampleR_ok {c : UniCat L α K} {size : ℤ} {ω : Draws K} {g : Gen (List (Cat α))}
    (h : c.sampleR fl64 size ω = .ok g) :
    c.vars.Nodup ∧ c.vars ≠ [] ∧ g.cols = c.vars.length ∧ (g.rows.length : ℤ) = size ∧
    Rect c.vars.length g.rows ∧ g.dt ≠ .float ∧
    (∀ (j : ℕ) (l : L), c.vars[j]? = some l → ∃ t, c.table l = some t ∧
      ((∀ v ∈ t.map Prod.fst, v.isStr = true) → g.dt = .object) ∧
      (Unit01 ω → (∀ x ∈ t.map Prod.snd, IsDouble x) → ∀ r ∈ g.rows, ∀ v, r[j]? = some v →
        ∃ q, (v, q) ∈ t ∧ 0 < q) ∧
      ∀ (i : ℕ) r, g.rows[i]? = some r → ∀ v, r[j]? = some v →
        pickValR fl64 (t.map Prod.fst) (t.map Prod.snd) (ω i j) = .ok v) := by
  unfold UniCat.sampleR at h
  split at h
  · cases h
  rename_i hnd
  split at h
  · cases h
  rename_i cols hcols
  have hcl : ∀ c' ∈ cols, c'.2.length = size.toNat ∧ 0 ≤ size := by
    intro c' hc'
    obtain ⟨li, _, hli⟩ := mapME_mem hcols hc'
    obtain ⟨t, _, _, hch⟩ := UniCat.sampleColR_ok (d := c'.1) (col := c'.2) hli
    obtain ⟨h0, _, _, _, hl, _⟩ := npChoiceR_ok hch
    exact ⟨hl, h0⟩
  obtain ⟨hne, h1, h2, h3, h4, h5, h6⟩ := frame_ok h (fun c' hc' => (hcl c' hc').1)
  have hlen : cols.length = c.vars.length := by rw [mapME_length hcols, List.length_zipIdx]
  have hsz : 0 ≤ size := by
    obtain ⟨c0, cs, rfl⟩ := List.exists_cons_of_ne_nil hne
    exact (hcl c0 (by simp)).2
  refine ⟨not_not.1 hnd, ?_, by rw [h1, hlen], by rw [h2]; omega, by rw [← hlen]; exact h3, h6, ?_⟩
  · intro hv
    rw [hv, List.length_nil] at hlen
    exact hne (List.length_eq_zero_iff.1 hlen)
  · intro j l hj
    have hjl : j < cols.length := by rw [hlen]; exact (List.getElem?_eq_some_iff.1 hj).1
    obtain ⟨li, hli, hf⟩ := mapME_get hcols (List.getElem?_eq_getElem hjl)
    rw [List.getElem?_zipIdx, hj] at hli
    simp only [Option.map_some, Option.some.injEq, Nat.zero_add] at hli
    subst hli
    simp only at hf
    obtain ⟨t, ht, hd, hch⟩ := UniCat.sampleColR_ok (d := cols[j].1) (col := cols[j].2) hf
    refine ⟨t, ht, ?_, ?_, ?_⟩
    · intro hs
      rw [listDType_str hs] at hd
      exact h5.2 ⟨cols[j], List.getElem_mem hjl, (Except.ok.inj hd).symm⟩
    · intro hω hdd r hr v hv
      obtain ⟨i, hi⟩ := List.mem_iff_getElem?.1 hr
      have := h4 i j r cols[j] hi (List.getElem?_eq_getElem hjl)
      rw [hv] at this
      obtain ⟨k, q, k1, k2, k3⟩ := npChoiceR_values hch hdd (fun i => hω i _)
        (List.mem_of_getElem? this.symm)
      exact ⟨q, mem_of_map_get k1 k2, k3⟩
    · intro i r hi v hv
      have := h4 i j r cols[j] hi (List.getElem?_eq_getElem hjl)
      rw [hv] at this
      exact (npChoiceR_ok hch).2.2.2.2.2 i v this.symm

theorem UniCat.sampleR_isOk {c : UniCat L α K} {size : ℤ} {ω : Draws K} (hsz : 0 ≤ size)
    (hω : Unit01 ω) (hnd : c.vars.Nodup) (hne : c.vars ≠ [])
    (ht : ∀ l ∈ c.vars, ∃ t, c.table l = some t ∧ SameType (t.map Prod.fst) ∧
      ProbList (t.map Prod.snd) ∧ |fl64 (kahanSum fl64 (t.map Prod.snd) - 1)| ≤ 1 / 2 ^ 26) :
    ∃ g, c.sampleR fl64 size ω = .ok g := by
  obtain ⟨cols, hcols⟩ := mapME_isOk (l := c.vars.zipIdx)
    (f := fun li : L × ℕ => c.sampleColR fl64 size ω li.2 li.1) (by
      rintro ⟨l, j⟩ hlj
      have hl : l ∈ c.vars := by
        obtain ⟨_, _, hx⟩ := List.mem_zipIdx hlj
        rw [hx]; exact List.getElem_mem _
      obtain ⟨t, h1, h2, h3, h4⟩ := ht l hl
      obtain ⟨dt, hdt⟩ := listDType_isOk h2
      obtain ⟨col, hcol⟩ := npChoiceR_isOk (vals := t.map Prod.fst) (size := size)
        (x := fun i => ω i j) hsz (by simp) h3 h4 (fun i => hω i j)
      exact ⟨(dt, col), by unfold UniCat.sampleColR; rw [h1]; simp only [hdt, hcol]⟩)
  have hcn : cols ≠ [] := by
    intro h
    have := mapME_length hcols
    rw [h, List.length_zipIdx] at this
    exact hne (List.length_eq_zero_iff.1 this.symm)
  obtain ⟨g, hg⟩ := frame_isOk (size := size) hcn
  exact ⟨g, by unfold UniCat.sampleR; rw [if_neg (not_not.2 hnd), hcols]; exact hg⟩

theorem CatSpace.sampleColR_ok {fl : K → K} {s : CatSpace α K} {size : ℤ} {ω : Draws K} {j : ℕ}
    {d : DType} {col : List (Cat α)} (h : s.sampleColR fl size ω j = .ok (d, col)) :
    ∃ v p, s.vals[j]? = some v ∧ s.freq[j]? = some p ∧
      (s.objArr = true → d = .object) ∧ (s.objArr = false → listDType v = .ok d) ∧
      npChoiceR fl v p size (fun i => ω i j) = .ok col := by
  unfold CatSpace.sampleColR at h
  split at h
  · rename_i v p hv hp
    split at h
    · cases h
    rename_i dt hdt
    split at h
    · cases h
    rename_i col' hcol
    have := Except.ok.inj h
    simp only [Prod.mk.injEq] at this
    obtain ⟨rfl, rfl⟩ := this
    refine ⟨v, p, hv, hp, ?_, ?_, hcol⟩
    · intro ho; rw [ho, if_pos rfl] at hdt; exact (Except.ok.inj hdt).symm
    · intro ho; rw [ho] at hdt; simpa using hdt
  · cases h

theorem CatSpace.sampleR_ok {s : CatSpace α K} {n : ℕ} {size : ℤ} {ω : Draws K}
    {g : Gen (List (Cat α))} (h : s.sampleR fl64 n size ω = .ok g) :
    n ≠ 0 ∧ g.cols = n ∧ (g.rows.length : ℤ) = size ∧ Rect n g.rows ∧ g.dt ≠ .float ∧
    (∀ j < n, ∃ v p, s.vals[j]? = some v ∧ s.freq[j]? = some p ∧ v.length = p.length ∧
      (∀ x ∈ p, 0 ≤ x) ∧
      ((∀ w ∈ v, w.isStr = true) → g.dt = .object) ∧
      (Unit01 ω → (∀ x ∈ p, IsDouble x) → ∀ r ∈ g.rows, ∀ w, r[j]? = some w → ∃ (i : ℕ) (q : K),
        v[i]? = some w ∧ p[i]? = some q ∧ 0 < q)) := by
  unfold CatSpace.sampleR at h
  split at h
  · cases h
  rename_i cols hcols
  have hcl : ∀ c' ∈ cols, c'.2.length = size.toNat ∧ 0 ≤ size := by
    intro c' hc'
    obtain ⟨li, _, hli⟩ := mapME_mem hcols hc'
    obtain ⟨v, p, _, _, _, _, hch⟩ := CatSpace.sampleColR_ok (d := c'.1) (col := c'.2) hli
    obtain ⟨h0, _, _, _, hl, _⟩ := npChoiceR_ok hch
    exact ⟨hl, h0⟩
  obtain ⟨hne, h1, h2, h3, h4, h5, h6⟩ := frame_ok h (fun c' hc' => (hcl c' hc').1)
  have hlen : cols.length = n := by rw [mapME_length hcols, List.length_range]
  have hsz : 0 ≤ size := by
    obtain ⟨c0, cs, rfl⟩ := List.exists_cons_of_ne_nil hne
    exact (hcl c0 (by simp)).2
  have hcol : ∀ j (hj : j < cols.length), s.sampleColR fl64 size ω j = .ok (cols[j].1, cols[j].2) := by
    intro j hj
    obtain ⟨li, hli, hf⟩ := mapME_get hcols (List.getElem?_eq_getElem hj)
    obtain ⟨_, rfl⟩ := List.getElem?_eq_some_iff.1 hli
    rw [List.getElem_range] at hf
    exact hf
  refine ⟨?_, by rw [h1, hlen], by rw [h2]; omega, by rw [← hlen]; exact h3, h6, ?_⟩
  · intro hn
    rw [hn] at hlen
    exact hne (List.length_eq_zero_iff.1 hlen)
  · intro j hj
    have hjl : j < cols.length := by omega
    obtain ⟨v, p, k1, k2, k3, k4, hch⟩ := CatSpace.sampleColR_ok (hcol j hjl)
    obtain ⟨_, c1, c2, _⟩ := npChoiceR_ok hch
    refine ⟨v, p, k1, k2, c1, c2, ?_, ?_⟩
    · intro hs
      refine h5.2 ⟨cols[j], List.getElem_mem hjl, ?_⟩
      cases ho : s.objArr with
      | true => exact k3 ho
      | false =>
        have := k4 ho
        rw [listDType_str hs] at this
        exact (Except.ok.inj this).symm
    · intro hω hd r hr w hw
      obtain ⟨i, hi⟩ := List.mem_iff_getElem?.1 hr
      have := h4 i j r cols[j] hi (List.getElem?_eq_getElem hjl)
      rw [hw] at this
      exact npChoiceR_values hch hd (fun i => hω i _) (List.mem_of_getElem? this.symm)

theorem CatSpace.sampleR_isOk {s : CatSpace α K} {n : ℕ} {size : ℤ} {ω : Draws K} (hn : n ≠ 0)
    (hsz : 0 ≤ size) (hω : Unit01 ω)
    (hv : ∀ j < n, ∃ v p, s.vals[j]? = some v ∧ s.freq[j]? = some p ∧ v.length = p.length ∧
      ProbList p ∧ |fl64 (kahanSum fl64 p - 1)| ≤ 1 / 2 ^ 26 ∧ (s.objArr = false → SameType v)) :
    ∃ g, s.sampleR fl64 n size ω = .ok g := by
  obtain ⟨cols, hcols⟩ := mapME_isOk (l := List.range n) (f := s.sampleColR fl64 size ω) (by
      intro j hj
      obtain ⟨v, p, k1, k2, k3, k4, k5, k6⟩ := hv j (List.mem_range.1 hj)
      obtain ⟨col, hcol⟩ := npChoiceR_isOk (x := fun i => ω i j) hsz k3 k4 k5 (fun i => hω i j)
      unfold CatSpace.sampleColR
      rw [k1, k2]
      simp only [hcol]
      cases ho : s.objArr with
      | true => exact ⟨_, rfl⟩
      | false =>
        obtain ⟨dt, hdt⟩ := listDType_isOk (k6 ho)
        simp [hdt])
  have hcn : cols ≠ [] := by
    intro h
    have := mapME_length hcols
    rw [h, List.length_range] at this
    exact hn (by simpa using this.symm)
  obtain ⟨g, hg⟩ := frame_isOk (size := size) hcn
  exact ⟨g, by unfold CatSpace.sampleR; rw [hcols]; exact hg⟩

theorem CatSpace.checkR_isOk {fl : K → K} {order : ℕ → SumTree} {s : CatSpace α K} {n : ℕ}
    (h : ∀ i < n, ∃ v p, s.vals[i]? = some v ∧ s.freq[i]? = some p ∧ v.length = p.length ∧
      |fl ((order p.length).eval fl (fun k => p.getD k 0) - 1)| ≤ fl (1 / 10)) : s.checkR fl order n = .ok () := by
  unfold CatSpace.checkR
  obtain ⟨r, hr⟩ := mapME_isOk (l := List.range n) (f := s.checkVarR fl order) (by
    intro i hi
    obtain ⟨v, p, h1, h2, h3, h4⟩ := h i (List.mem_range.1 hi)
    refine ⟨(), ?_⟩
    unfold CatSpace.checkVarR
    rw [h1, h2]
    simp only
    rw [if_neg (by simpa using h3), if_neg (not_lt.2 h4)])
  rw [hr]

end sample

end Verif
