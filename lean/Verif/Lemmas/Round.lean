/-
Error bounds for rounded sums, means and variances.
-/
import Verif.Model.Round
import Verif.Lemmas.Float64
import Verif.Lemmas.Gauss

set_option linter.unusedSectionVars false

namespace Verif

open Spec

variable {K : Type} [Field K] [LinearOrder K] [IsStrictOrderedRing K] [FloorRing K]

/-- The multiples of the smallest positive double. -/
def OnGrid (x : K) : Prop := ∃ n : ℤ, x = n * 2 ^ (-1074 : ℤ)

/-- Relative error of rounding: `2^-53`, plus half the smallest positive double in case of underflow. -/
theorem fl64_error (x : K) : |fl64 x - x| ≤ 2 ^ (-53 : ℤ) * |x| + 2 ^ (-1075 : ℤ) := by
  have key : ∀ y : K, 0 ≤ y → |roundPos y - y| ≤ 2 ^ (-53 : ℤ) * y + 2 ^ (-1075 : ℤ) := by
    intro y hy
    rcases hy.eq_or_lt with rfl | hy
    · rw [roundPos_zero]; simp only [sub_zero, abs_zero, mul_zero, zero_add]; exact (two_zpow_pos _).le
    rw [abs_sub_comm]
    refine (roundPos_half y).trans ?_
    unfold ulpExp
    rcases le_total (-1074) (Int.log 2 y - 52) with h | h
    · rw [max_eq_left h]
      have h1 : (2 : K) ^ Int.log 2 y ≤ y := Int.zpow_log_le_self (b := 2) (by norm_num) hy
      have h2 : (2 : K) ^ (Int.log 2 y - 52) / 2 = 2 ^ (-53 : ℤ) * 2 ^ Int.log 2 y := by
        rw [← zpow_add₀ (by norm_num), div_eq_mul_inv, ← zpow_neg_one, ← zpow_add₀ (by norm_num)]
        congr 1; ring
      rw [h2]
      have := mul_le_mul_of_nonneg_left h1 (two_zpow_pos (K := K) (-53)).le
      have := two_zpow_pos (K := K) (-1075)
      linarith
    · rw [max_eq_right h]
      have h2 : (2 : K) ^ (-1074 : ℤ) / 2 = 2 ^ (-1075 : ℤ) := by
        rw [div_eq_mul_inv, ← zpow_neg_one, ← zpow_add₀ (by norm_num)]; norm_num
      rw [h2]
      have := mul_nonneg (two_zpow_pos (K := K) (-53)).le hy.le
      linarith
  unfold fl64
  by_cases hx : x < 0
  · rw [if_pos hx, abs_of_neg hx]
    have := key (-x) (by linarith)
    rwa [show -roundPos (-x) - x = -(roundPos (-x) - -x) by ring, abs_neg]
  · rw [if_neg hx, abs_of_nonneg (not_lt.1 hx)]
    exact key x (not_lt.1 hx)

/-- No underflow for multiples of the smallest positive double. -/
theorem fl64_error_grid {x : K} (hg : OnGrid x) : |fl64 x - x| ≤ 2 ^ (-53 : ℤ) * |x| := by
  have key : ∀ y : K, 0 ≤ y → OnGrid y → |roundPos y - y| ≤ 2 ^ (-53 : ℤ) * y := by
    intro y hy hg
    rcases hy.eq_or_lt with rfl | hy
    · rw [roundPos_zero]; simp
    rcases le_total (-1074) (Int.log 2 y - 52) with h | h
    · rw [abs_sub_comm]
      refine (roundPos_half y).trans ?_
      unfold ulpExp
      rw [max_eq_left h]
      have h1 : (2 : K) ^ Int.log 2 y ≤ y := Int.zpow_log_le_self (b := 2) (by norm_num) hy
      have h2 : (2 : K) ^ (Int.log 2 y - 52) / 2 = 2 ^ (-53 : ℤ) * 2 ^ Int.log 2 y := by
        rw [← zpow_add₀ (by norm_num), div_eq_mul_inv, ← zpow_neg_one, ← zpow_add₀ (by norm_num)]
        congr 1; ring
      rw [h2]
      exact mul_le_mul_of_nonneg_left h1 (two_zpow_pos (K := K) (-53)).le
    · obtain ⟨n, hn⟩ := hg
      rw [roundPos_fix (k := -1074) (n := n) (by unfold ulpExp; rw [max_eq_right h]) hn, sub_self, abs_zero]
      exact mul_nonneg (two_zpow_pos (K := K) (-53)).le hy.le
  unfold fl64
  by_cases hx : x < 0
  · rw [if_pos hx, abs_of_neg hx]
    have := key (-x) (by linarith) (by obtain ⟨n, rfl⟩ := hg; exact ⟨-n, by push_cast; ring⟩)
    rwa [show -roundPos (-x) - x = -(roundPos (-x) - -x) by ring, abs_neg]
  · rw [if_neg hx, abs_of_nonneg (not_lt.1 hx)]
    exact key x (not_lt.1 hx) hg

theorem OnGrid.add {x y : K} (hx : OnGrid x) (hy : OnGrid y) : OnGrid (x + y) := by
  obtain ⟨a, rfl⟩ := hx
  obtain ⟨b, rfl⟩ := hy
  exact ⟨a + b, by push_cast; ring⟩

theorem OnGrid.sub {x y : K} (hx : OnGrid x) (hy : OnGrid y) : OnGrid (x - y) := by
  obtain ⟨a, rfl⟩ := hx
  obtain ⟨b, rfl⟩ := hy
  exact ⟨a - b, by push_cast; ring⟩

theorem onGrid_double {x : K} (h : IsDouble x) : OnGrid x := isDouble_grid h

theorem isDouble_zero : IsDouble (0 : K) := ⟨0, 0, by norm_num, by norm_num, by simp⟩

/-- Unit roundoff. -/
local notation "u" => ((2 : K) ^ (-53 : ℤ))
/-- Half the smallest positive double. -/
local notation "η" => ((2 : K) ^ (-1075 : ℤ))

theorem u_pos : (0 : K) < u := two_zpow_pos _
theorem eta_pos : (0 : K) < η := two_zpow_pos _
theorem u_lt_one : (u : K) < 1 := by
  have : (2 : K) ^ (-53 : ℤ) < 2 ^ (0 : ℤ) := zpow_lt_zpow_right₀ (by norm_num) (by norm_num)
  simpa using this

theorem SumTree.eval_double (t : SumTree) {x : ℕ → K} (hx : ∀ i ∈ t.leaves, IsDouble (x i)) :
    IsDouble (t.eval fl64 x) := by
  cases t with
  | zero => exact isDouble_zero
  | leaf i => exact hx i (by simp [SumTree.leaves])
  | add l r => exact fl64_double _

/-- A rounded sum: the error is at most `(1 + u)^depth - 1` times the sum of the absolute values. -/
theorem SumTree.eval_error (t : SumTree) {x : ℕ → K} (hx : ∀ i ∈ t.leaves, IsDouble (x i)) :
    |t.eval fl64 x - (t.leaves.map x).sum| ≤
      ((1 + u) ^ t.depth - 1) * (t.leaves.map (fun i => |x i|)).sum := by
  induction t with
  | zero => simp [SumTree.eval, SumTree.leaves]
  | leaf i => simp [SumTree.eval, SumTree.leaves, SumTree.depth]
  | add l r ihl ihr =>
    have hxl : ∀ i ∈ l.leaves, IsDouble (x i) := fun i h => hx i (by simp [SumTree.leaves, h])
    have hxr : ∀ i ∈ r.leaves, IsDouble (x i) := fun i h => hx i (by simp [SumTree.leaves, h])
    have hl := ihl hxl
    have hr := ihr hxr
    have habs : ∀ s : List ℕ, |(s.map x).sum| ≤ (s.map (fun i => |x i|)).sum := by
      intro s
      induction s with
      | nil => simp
      | cons a s ih =>
        simp only [List.map_cons, List.sum_cons]
        exact (abs_add_le _ _).trans (by linarith)
    have hnn : ∀ s : List ℕ, 0 ≤ (s.map (fun i => |x i|)).sum := fun s =>
      List.sum_nonneg (by intro a ha; obtain ⟨i, _, rfl⟩ := List.mem_map.1 ha; exact abs_nonneg _)
    set A := (l.leaves.map (fun i => |x i|)).sum with hA
    set B := (r.leaves.map (fun i => |x i|)).sum with hB
    set d := max l.depth r.depth with hd
    have hA0 : 0 ≤ A := hnn _
    have hB0 : 0 ≤ B := hnn _
    have h1u : (1 : K) ≤ 1 + u := by have := u_pos (K := K); linarith
    have hpl : (1 + u : K) ^ l.depth ≤ (1 + u) ^ d := pow_le_pow_right₀ h1u (le_max_left _ _)
    have hpr : (1 + u : K) ^ r.depth ≤ (1 + u) ^ d := pow_le_pow_right₀ h1u (le_max_right _ _)
    have hl' : |l.eval fl64 x - (l.leaves.map x).sum| ≤ ((1 + u) ^ d - 1) * A :=
      hl.trans (mul_le_mul_of_nonneg_right (by linarith) hA0)
    have hr' : |r.eval fl64 x - (r.leaves.map x).sum| ≤ ((1 + u) ^ d - 1) * B :=
      hr.trans (mul_le_mul_of_nonneg_right (by linarith) hB0)
    have hround := fl64_error_grid ((onGrid_double (l.eval_double hxl)).add (onGrid_double (r.eval_double hxr)))
    have hel : |l.eval fl64 x| ≤ (1 + u) ^ d * A := by
      have := habs l.leaves
      have := abs_le.1 hl'
      have := abs_le.1 (habs l.leaves)
      rw [abs_le]; constructor <;> nlinarith
    have her : |r.eval fl64 x| ≤ (1 + u) ^ d * B := by
      have := abs_le.1 hr'
      have := abs_le.1 (habs r.leaves)
      rw [abs_le]; constructor <;> nlinarith
    simp only [SumTree.eval, SumTree.leaves, SumTree.depth, List.map_append, List.sum_append]
    rw [← hA, ← hB, ← hd]
    have hsum : |l.eval fl64 x + r.eval fl64 x| ≤ (1 + u) ^ d * (A + B) :=
      (abs_add_le _ _).trans (by rw [mul_add]; exact add_le_add hel her)
    have hstep : |fl64 (l.eval fl64 x + r.eval fl64 x) - (l.eval fl64 x + r.eval fl64 x)| ≤
        u * ((1 + u) ^ d * (A + B)) := hround.trans (mul_le_mul_of_nonneg_left hsum (u_pos (K := K)).le)
    have hgoal : fl64 (l.eval fl64 x + r.eval fl64 x) - ((l.leaves.map x).sum + (r.leaves.map x).sum) =
        (fl64 (l.eval fl64 x + r.eval fl64 x) - (l.eval fl64 x + r.eval fl64 x)) +
        ((l.eval fl64 x - (l.leaves.map x).sum) + (r.eval fl64 x - (r.leaves.map x).sum)) := by ring
    rw [hgoal]
    calc _ ≤ u * ((1 + u) ^ d * (A + B)) + (((1 + u) ^ d - 1) * A + ((1 + u) ^ d - 1) * B) :=
          (abs_add_le _ _).trans (add_le_add hstep ((abs_add_le _ _).trans (add_le_add hl' hr')))
      _ = _ := by rw [pow_succ]; ring

/-- A rounded sum of non-negative numbers is non-negative. -/
theorem SumTree.eval_nonneg (t : SumTree) {x : ℕ → K} (hx : ∀ i ∈ t.leaves, 0 ≤ x i) : 0 ≤ t.eval fl64 x := by
  induction t with
  | zero => exact le_rfl
  | leaf i => exact hx i (by simp [SumTree.leaves])
  | add l r ihl ihr =>
    have h1 := ihl fun i h => hx i (by simp [SumTree.leaves, h])
    have h2 := ihr fun i h => hx i (by simp [SumTree.leaves, h])
    have := fl64_mono (add_nonneg h1 h2)
    rwa [fl64_zero] at this

theorem one_sub_pow_le (d : ℕ) : (1 - u : K) ^ d ≤ 1 ∧ 0 < (1 - u : K) ^ d := by
  have := u_lt_one (K := K)
  have := u_pos (K := K)
  exact ⟨pow_le_one₀ (by linarith) (by linarith), pow_pos (by linarith) d⟩

/-- A rounded sum of non-negative numbers loses at most the factor `(1 - u)^depth`. -/
theorem SumTree.eval_lower (t : SumTree) {x : ℕ → K} (hx : ∀ i ∈ t.leaves, IsDouble (x i))
    (h0 : ∀ i ∈ t.leaves, 0 ≤ x i) : (1 - u) ^ t.depth * (t.leaves.map x).sum ≤ t.eval fl64 x := by
  induction t with
  | zero => simp [SumTree.eval, SumTree.leaves]
  | leaf i => simp [SumTree.eval, SumTree.leaves, SumTree.depth]
  | add l r ihl ihr =>
    have hxl : ∀ i ∈ l.leaves, IsDouble (x i) := fun i h => hx i (by simp [SumTree.leaves, h])
    have hxr : ∀ i ∈ r.leaves, IsDouble (x i) := fun i h => hx i (by simp [SumTree.leaves, h])
    have h0l : ∀ i ∈ l.leaves, 0 ≤ x i := fun i h => h0 i (by simp [SumTree.leaves, h])
    have h0r : ∀ i ∈ r.leaves, 0 ≤ x i := fun i h => h0 i (by simp [SumTree.leaves, h])
    have hl := ihl hxl h0l
    have hr := ihr hxr h0r
    have hnl := l.eval_nonneg h0l
    have hnr := r.eval_nonneg h0r
    have hsl : 0 ≤ (l.leaves.map x).sum :=
      List.sum_nonneg (by intro a ha; obtain ⟨i, hi, rfl⟩ := List.mem_map.1 ha; exact h0l i hi)
    have hsr : 0 ≤ (r.leaves.map x).sum :=
      List.sum_nonneg (by intro a ha; obtain ⟨i, hi, rfl⟩ := List.mem_map.1 ha; exact h0r i hi)
    have hu1 := u_lt_one (K := K)
    have hu0 := u_pos (K := K)
    set d := max l.depth r.depth with hd
    have hpl : (1 - u : K) ^ d ≤ (1 - u) ^ l.depth :=
      pow_le_pow_of_le_one (by linarith) (by linarith) (le_max_left _ _)
    have hpr : (1 - u : K) ^ d ≤ (1 - u) ^ r.depth :=
      pow_le_pow_of_le_one (by linarith) (by linarith) (le_max_right _ _)
    have hround := fl64_error_grid ((onGrid_double (l.eval_double hxl)).add (onGrid_double (r.eval_double hxr)))
    rw [abs_of_nonneg (add_nonneg hnl hnr)] at hround
    have h1 := (abs_le.1 hround).1
    simp only [SumTree.eval, SumTree.leaves, SumTree.depth, List.map_append, List.sum_append]
    rw [← hd]
    have h2 : (1 - u) ^ d * (l.leaves.map x).sum ≤ l.eval fl64 x :=
      (mul_le_mul_of_nonneg_right hpl hsl).trans hl
    have h3 : (1 - u) ^ d * (r.leaves.map x).sum ≤ r.eval fl64 x :=
      (mul_le_mul_of_nonneg_right hpr hsr).trans hr
    calc (1 - u) ^ (d + 1) * ((l.leaves.map x).sum + (r.leaves.map x).sum)
        = (1 - u) * ((1 - u) ^ d * (l.leaves.map x).sum + (1 - u) ^ d * (r.leaves.map x).sum) := by
          rw [pow_succ]; ring
      _ ≤ (1 - u) * (l.eval fl64 x + r.eval fl64 x) :=
          mul_le_mul_of_nonneg_left (add_le_add h2 h3) (by linarith)
      _ ≤ _ := by linarith

/-- A rounded sum of non-negative numbers gains at most the factor `(1 + u)^depth`. -/
theorem SumTree.eval_upper (t : SumTree) {x : ℕ → K} (hx : ∀ i ∈ t.leaves, IsDouble (x i))
    (h0 : ∀ i ∈ t.leaves, 0 ≤ x i) : t.eval fl64 x ≤ (1 + u) ^ t.depth * (t.leaves.map x).sum := by
  have h := (abs_le.1 (t.eval_error hx)).2
  have e : (t.leaves.map (fun i => |x i|)) = t.leaves.map x :=
    List.map_congr_left fun i hi => abs_of_nonneg (h0 i hi)
  rw [e] at h
  linarith

/-! ### numpy's order of additions -/

theorem SumTree.acc_leaves (t : SumTree) (a step n : ℕ) :
    (t.acc a step n).leaves = t.leaves ++ (List.range n).map (fun i => a + i * step) := by
  induction n with
  | zero => simp [SumTree.acc]
  | succ n ih => simp [SumTree.acc, SumTree.leaves, ih, List.range_succ]

theorem SumTree.acc_depth (t : SumTree) (a step n : ℕ) : (t.acc a step n).depth = t.depth + n := by
  induction n with
  | zero => rfl
  | succ n ih => simp [SumTree.acc, SumTree.depth, ih]; omega

/-- Eight interleaved lists are the whole range. -/
theorem interleaved (a m : ℕ) :
    ((List.range 8).flatMap (fun k => (List.range m).map (fun i => a + k + 8 * i))).Perm (List.range' a (8 * m)) := by
  have h1 : ((List.range 8).flatMap (fun k => (List.range m).map (fun i => a + k + 8 * i))).Perm
      ((List.range m).flatMap (fun i => (List.range 8).map (fun k => a + k + 8 * i))) := by
    rw [← Multiset.coe_eq_coe, ← Multiset.coe_bind, ← Multiset.coe_bind]
    exact Multiset.bind_map_comm (List.range 8 : Multiset ℕ) (List.range m : Multiset ℕ)
  refine h1.trans (List.Perm.of_eq ?_)
  clear h1
  induction m with
  | zero => simp
  | succ m ih =>
    rw [List.range_succ (n := m), List.flatMap_append, ih, Nat.mul_succ, ← List.range'_append_1]
    congr 1
    simp [List.range_succ, List.range'_succ]
    omega

theorem npPairwise_leaves : ∀ (fuel a n : ℕ), n < fuel → (npPairwise fuel a n).leaves.Perm (List.range' a n)
  | 0, _, _, h => absurd h (by omega)
  | fuel + 1, a, n, h => by
    unfold npPairwise
    split
    · rw [SumTree.acc_leaves]
      simp [SumTree.leaves, List.range'_eq_map_range]
    rename_i h8
    split
    · rename_i h128
      obtain ⟨m, hm⟩ : ∃ m, n / 8 = m + 1 := ⟨n / 8 - 1, by omega⟩
      have hr : ∀ k, ((SumTree.leaf (a + k)).acc (a + k + 8) 8 m).leaves =
          (List.range (m + 1)).map (fun i => a + k + 8 * i) := by
        intro k
        rw [SumTree.acc_leaves, List.range_succ_eq_map]
        simp only [SumTree.leaves, List.map_cons, List.map_map, List.singleton_append, mul_zero, add_zero,
          List.cons.injEq, true_and]
        exact List.map_congr_left fun i _ => by simp; ring
      simp only [hm, Nat.add_sub_cancel]
      rw [SumTree.acc_leaves]
      have hn : n = 8 * (m + 1) + (n - 8 * (m + 1)) := by omega
      conv_rhs => rw [hn, ← List.range'_append_1]
      refine List.Perm.append ?_ ?_
      · have h8 : ((List.range 8).flatMap (fun k => (List.range (m + 1)).map (fun i => a + k + 8 * i))) =
            _ := rfl
        refine List.Perm.trans (List.Perm.of_eq ?_) (interleaved a (m + 1))
        simp only [SumTree.leaves, hr]
        simp [List.range_succ]
      · rw [List.range'_eq_map_range]
        exact List.Perm.of_eq (List.map_congr_left fun i _ => by ring)
    · rename_i h128
      simp only [SumTree.leaves]
      have h2 : n / 2 - n / 2 % 8 < n := by omega
      have hn : n = (n / 2 - n / 2 % 8) + (n - (n / 2 - n / 2 % 8)) := by omega
      conv_rhs => rw [hn, ← List.range'_append_1]
      exact (npPairwise_leaves fuel a _ (by omega)).append (npPairwise_leaves fuel _ _ (by omega))

theorem npPairwise_depth (k : ℕ) : ∀ (fuel a n : ℕ), n ≤ 112 * 2 ^ k + 16 → (npPairwise fuel a n).depth ≤ 25 + k := by
  induction k with
  | zero =>
    intro fuel a n hn
    cases fuel with
    | zero => simp [npPairwise, SumTree.depth]
    | succ fuel =>
      unfold npPairwise
      split
      · rw [SumTree.acc_depth]; simp [SumTree.depth]; omega
      · rw [if_pos (by omega), SumTree.acc_depth]
        simp only [SumTree.depth, SumTree.acc_depth]
        omega
  | succ k ih =>
    intro fuel a n hn
    cases fuel with
    | zero => simp [npPairwise, SumTree.depth]
    | succ fuel =>
      unfold npPairwise
      split
      · rw [SumTree.acc_depth]; simp [SumTree.depth]; omega
      split
      · rw [SumTree.acc_depth]
        simp only [SumTree.depth, SumTree.acc_depth]
        omega
      · simp only [SumTree.depth]
        rw [pow_succ] at hn
        have h1 := ih fuel a (n / 2 - n / 2 % 8) (by omega)
        have h2 := ih fuel (a + (n / 2 - n / 2 % 8)) (n - (n / 2 - n / 2 % 8)) (by omega)
        omega

/-! ### Means and variances -/

/-- Every summand is added exactly once. -/
def Spec.SumsAll (order : ℕ → SumTree) : Prop := ∀ n, (order n).leaves.Perm (List.range n)

theorem npOrder_sumsAll : SumsAll npOrder := fun n => by
  have := npPairwise_leaves (n + 1) 0 n (by omega)
  rwa [← List.range_eq_range'] at this

/-- All values of the data are doubles. -/
def Spec.AllDouble (rows : List (List K)) : Prop := ∀ r ∈ rows, ∀ x ∈ r, IsDouble x

theorem AllDouble.at {rows : List (List K)} (h : AllDouble rows) (i j : ℕ) :
    IsDouble ((rows.getD i []).getD j 0) := by
  simp only [List.getD_eq_getElem?_getD]
  cases hi : rows[i]? with
  | none => simpa using isDouble_zero
  | some r =>
    rw [Option.getD_some]
    cases hj : r[j]? with
    | none => exact isDouble_zero
    | some x => exact h r (List.mem_of_getElem? hi) x (List.mem_of_getElem? hj)

theorem range_col (rows : List (List K)) (j : ℕ) :
    (List.range rows.length).map (fun i => (rows.getD i []).getD j 0) = col rows j := by
  apply List.ext_getElem?
  intro i
  unfold col
  by_cases hi : i < rows.length
  · simp [List.getD_eq_getElem?_getD, hi]
  · simp [hi]

theorem sum_order {order : ℕ → SumTree} (ho : SumsAll order) (rows : List (List K)) (j : ℕ) (g : K → K) :
    ((order rows.length).leaves.map (fun i => g ((rows.getD i []).getD j 0))).sum = ((col rows j).map g).sum := by
  rw [← range_col rows j, List.map_map]
  exact ((ho rows.length).map _).sum_eq

section
variable {order : ℕ → SumTree} {rows : List (List K)} {j : ℕ}

theorem abs_sum_le (l : List K) : |l.sum| ≤ (l.map abs).sum := by
  induction l with
  | nil => simp
  | cons a l ih =>
    simp only [List.map_cons, List.sum_cons]
    exact (abs_add_le _ _).trans (by linarith)

theorem colMeanR_error (ho : SumsAll order) (hd : AllDouble rows) (hne : rows ≠ []) :
    |colMeanR fl64 order rows j - mean (col rows j)| ≤
      ((1 + u) ^ ((order rows.length).depth + 1) - 1) * mean ((col rows j).map abs) + η := by
  have hn : (0 : K) < rows.length := by exact_mod_cast List.length_pos_iff.2 hne
  have h1 := (order rows.length).eval_error (x := fun i => (rows.getD i []).getD j 0)
    (fun i _ => AllDouble.at hd i j)
  rw [sum_order ho rows j abs] at h1
  have h2 := sum_order ho rows j id
  rw [List.map_id] at h2
  simp only [id] at h2
  rw [h2] at h1
  unfold colMeanR mean
  set S' := (order rows.length).eval fl64 (fun i => (rows.getD i []).getD j 0)
  set S := (col rows j).sum
  set A := ((col rows j).map abs).sum
  set d := (order rows.length).depth
  have hSA : |S| ≤ A := abs_sum_le _
  have hS' : |S'| ≤ (1 + u) ^ d * A := by
    have := abs_le.1 h1
    have := abs_le.1 hSA
    rw [abs_le]; constructor <;> nlinarith
  have hlen : (col rows j).length = rows.length := by simp [col]
  rw [List.length_map, hlen]
  have h3 := fl64_error (S' / (rows.length : K))
  rw [abs_div, abs_of_pos hn] at h3
  have h4 : |S' / rows.length - S / rows.length| ≤ ((1 + u) ^ d - 1) * A / rows.length := by
    rw [← sub_div, abs_div, abs_of_pos hn]
    exact div_le_div_of_nonneg_right h1 hn.le
  have h5 : u * (|S'| / rows.length) ≤ u * ((1 + u) ^ d * A / rows.length) :=
    mul_le_mul_of_nonneg_left (div_le_div_of_nonneg_right hS' hn.le) (u_pos (K := K)).le
  calc _ ≤ |fl64 (S' / rows.length) - S' / rows.length| + |S' / rows.length - S / rows.length| := abs_sub_le _ _ _
    _ ≤ (u * ((1 + u) ^ d * A / rows.length) + η) + ((1 + u) ^ d - 1) * A / rows.length := by linarith
    _ = _ := by rw [pow_succ]; ring

/-- The squared distances to any number: variance plus squared distance to the mean. -/
theorem sum_sq_dist {l : List K} (hl : l ≠ []) (c : K) :
    (l.map (fun x => (x - c) * (x - c))).sum / l.length = variance l + (c - mean l) ^ 2 := by
  have hn : (0 : K) < l.length := by exact_mod_cast List.length_pos_iff.2 hl
  have h1 : ∀ a : K, (l.map (fun x => (x - a) ^ 2)).sum =
      (l.map (fun x => x ^ 2)).sum - 2 * a * l.sum + l.length * a ^ 2 := by
    intro a
    clear hn hl
    induction l with
    | nil => simp
    | cons x l ih => simp only [List.map_cons, List.sum_cons, ih, List.length_cons]; push_cast; ring
  have h2 : l.map (fun x => (x - c) * (x - c)) = l.map (fun x => (x - c) ^ 2) :=
    List.map_congr_left fun x _ => by ring
  unfold variance
  rw [h2, h1, mean, h1, List.length_map, mean]
  field_simp
  ring

theorem colVarR_bounds (ho : SumsAll order) (hd : AllDouble rows) (hne : rows ≠ []) :
    0 ≤ colVarR fl64 order rows j ∧
    (1 - u) ^ ((order rows.length).depth + 4) *
        (variance (col rows j) + (colMeanR fl64 order rows j - mean (col rows j)) ^ 2) - 2 * η ≤
      colVarR fl64 order rows j ∧
    colVarR fl64 order rows j ≤ (1 + u) ^ ((order rows.length).depth + 4) *
        (variance (col rows j) + (colMeanR fl64 order rows j - mean (col rows j)) ^ 2) +
      ((1 + u) ^ ((order rows.length).depth + 1) + 1) * η := by
  have hn : (0 : K) < rows.length := by exact_mod_cast List.length_pos_iff.2 hne
  have hu0 := u_pos (K := K)
  have hu1 := u_lt_one (K := K)
  have he0 := eta_pos (K := K)
  set m := colMeanR fl64 order rows j with hm
  have hmd : IsDouble m := fl64_double _
  set y : K → K := fun x => fl64 (fl64 (x - m) * fl64 (x - m)) with hy
  have hy0 : ∀ x, 0 ≤ y x := by
    intro x
    have := fl64_mono (mul_self_nonneg (fl64 (x - m)))
    rwa [fl64_zero] at this
  -- one squared distance
  have hcell : ∀ x, IsDouble x → (1 - u) ^ 3 * ((x - m) * (x - m)) - η ≤ y x ∧
      y x ≤ (1 + u) ^ 3 * ((x - m) * (x - m)) + η := by
    intro x hx
    have h1 := fl64_error_grid ((onGrid_double hx).sub (onGrid_double hmd))
    have h2 := fl64_error (fl64 (x - m) * fl64 (x - m))
    rw [abs_of_nonneg (mul_self_nonneg (fl64 (x - m)))] at h2
    have h2 := abs_le.1 h2
    set t := fl64 (x - m)
    have hlo : (1 - u) * |x - m| ≤ |t| := by
      have := abs_sub_abs_le_abs_sub (x - m) t
      rw [abs_sub_comm (x - m) t] at this
      linarith
    have hhi : |t| ≤ (1 + u) * |x - m| := by
      have := abs_sub_abs_le_abs_sub t (x - m)
      linarith
    have q1 : (1 - u) ^ 2 * ((x - m) * (x - m)) ≤ t * t := by
      rw [← abs_mul_abs_self t, ← abs_mul_abs_self (x - m)]
      calc _ = ((1 - u) * |x - m|) * ((1 - u) * |x - m|) := by ring
        _ ≤ _ := mul_self_le_mul_self (mul_nonneg (by linarith) (abs_nonneg _)) hlo
    have q2 : t * t ≤ (1 + u) ^ 2 * ((x - m) * (x - m)) := by
      rw [← abs_mul_abs_self t, ← abs_mul_abs_self (x - m)]
      calc _ ≤ ((1 + u) * |x - m|) * ((1 + u) * |x - m|) := mul_self_le_mul_self (abs_nonneg _) hhi
        _ = _ := by ring
    constructor
    · have := mul_le_mul_of_nonneg_left q1 (show (0 : K) ≤ 1 - u by linarith)
      have e : (1 - u) * ((1 - u) ^ 2 * ((x - m) * (x - m))) = (1 - u) ^ 3 * ((x - m) * (x - m)) := by ring
      rw [e] at this
      show _ ≤ fl64 (t * t)
      linarith [h2.1]
    · have := mul_le_mul_of_nonneg_left q2 (show (0 : K) ≤ 1 + u by linarith)
      have e : (1 + u) * ((1 + u) ^ 2 * ((x - m) * (x - m))) = (1 + u) ^ 3 * ((x - m) * (x - m)) := by ring
      rw [e] at this
      show fl64 (t * t) ≤ _
      linarith [h2.2]
  -- the sum
  set S := (order rows.length).eval fl64 (fun i => y ((rows.getD i []).getD j 0)) with hS
  set d := (order rows.length).depth with hdep
  have hSlo := (order rows.length).eval_lower (x := fun i => y ((rows.getD i []).getD j 0))
    (fun i _ => fl64_double _) (fun i _ => hy0 _)
  have hShi := (order rows.length).eval_upper (x := fun i => y ((rows.getD i []).getD j 0))
    (fun i _ => fl64_double _) (fun i _ => hy0 _)
  have hS0 := (order rows.length).eval_nonneg (x := fun i => y ((rows.getD i []).getD j 0)) (fun i _ => hy0 _)
  rw [sum_order ho rows j y, ← hS, ← hdep] at hSlo hShi
  rw [← hS] at hS0
  have hcd : ∀ x ∈ col rows j, IsDouble x := by
    intro x hx
    rw [← range_col] at hx
    obtain ⟨i, _, rfl⟩ := List.mem_map.1 hx
    exact AllDouble.at hd i j
  have hcl : (col rows j).length = rows.length := by simp [col]
  have hcne : col rows j ≠ [] := by
    intro h0; rw [h0] at hcl; exact hne (List.length_eq_zero_iff.1 hcl.symm)
  set Q := ((col rows j).map (fun x => (x - m) * (x - m))).sum with hQ
  have hQ0 : 0 ≤ Q := List.sum_nonneg (by
    intro a ha; obtain ⟨x, _, rfl⟩ := List.mem_map.1 ha; exact mul_self_nonneg _)
  have hgen : ∀ l : List K, (∀ x ∈ l, IsDouble x) →
      (1 - u) ^ 3 * (l.map (fun x => (x - m) * (x - m))).sum - l.length * η ≤ (l.map y).sum ∧
      (l.map y).sum ≤ (1 + u) ^ 3 * (l.map (fun x => (x - m) * (x - m))).sum + l.length * η := by
    intro l
    induction l with
    | nil => simp
    | cons x l ih =>
      intro h
      obtain ⟨i1, i2⟩ := ih fun x hx => h x (List.mem_cons_of_mem _ hx)
      obtain ⟨c1, c2⟩ := hcell x (h x List.mem_cons_self)
      simp only [List.map_cons, List.sum_cons, List.length_cons]
      push_cast
      constructor <;> linarith
  obtain ⟨g1, g2⟩ := hgen _ hcd
  rw [← hQ, hcl] at g1 g2
  have hQn : Q / rows.length = variance (col rows j) + (m - mean (col rows j)) ^ 2 := by
    rw [hQ, ← hcl]; exact sum_sq_dist hcne m
  obtain ⟨p1, p2⟩ := one_sub_pow_le (K := K) d
  have hSlo' : (1 - u) ^ (d + 3) * Q - rows.length * η ≤ S := by
    have := mul_le_mul_of_nonneg_left g1 p2.le
    have h2 : (1 - u) ^ d * (rows.length * η) ≤ rows.length * η :=
      mul_le_of_le_one_left (mul_nonneg hn.le he0.le) p1
    have e : (1 - u) ^ d * ((1 - u) ^ 3 * Q - rows.length * η) =
        (1 - u) ^ (d + 3) * Q - (1 - u) ^ d * (rows.length * η) := by rw [pow_add]; ring
    rw [e] at this
    linarith
  have hShi' : S ≤ (1 + u) ^ (d + 3) * Q + (1 + u) ^ d * (rows.length * η) := by
    have := mul_le_mul_of_nonneg_left g2 (show (0 : K) ≤ (1 + u) ^ d by positivity)
    have e : (1 + u) ^ d * ((1 + u) ^ 3 * Q + rows.length * η) =
        (1 + u) ^ (d + 3) * Q + (1 + u) ^ d * (rows.length * η) := by rw [pow_add]; ring
    rw [e] at this
    linarith
  have hV : colVarR fl64 order rows j = fl64 (S / rows.length) := rfl
  have hq := abs_le.1 (fl64_error (S / (rows.length : K)))
  rw [abs_of_nonneg (div_nonneg hS0 hn.le)] at hq
  rw [hV, ← hQn]
  refine ⟨?_, ?_, ?_⟩
  · have := fl64_mono (div_nonneg hS0 hn.le)
    rwa [fl64_zero] at this
  · have h1 : (1 - u) ^ (d + 3) * (Q / rows.length) - η ≤ S / rows.length := by
      have := div_le_div_of_nonneg_right hSlo' hn.le
      rw [sub_div, mul_div_assoc, mul_div_cancel_left₀ _ hn.ne'] at this
      exact this
    have h2 := mul_le_mul_of_nonneg_left h1 (show (0 : K) ≤ 1 - u by linarith)
    have h3 : (1 - u) * ((1 - u) ^ (d + 3) * (Q / rows.length) - η) =
        (1 - u) ^ (d + 4) * (Q / rows.length) - (1 - u) * η := by
      rw [pow_succ _ (d + 3)]; ring
    rw [h3] at h2
    have h4 : (1 - u) * η ≤ η := mul_le_of_le_one_left he0.le (by linarith)
    linarith [hq.1]
  · have h1 : S / rows.length ≤ (1 + u) ^ (d + 3) * (Q / rows.length) + (1 + u) ^ d * η := by
      have := div_le_div_of_nonneg_right hShi' hn.le
      rw [add_div, mul_div_assoc, mul_div_assoc ((1 + u) ^ d), mul_div_cancel_left₀ _ hn.ne'] at this
      exact this
    have h2 := mul_le_mul_of_nonneg_left h1 (show (0 : K) ≤ 1 + u by linarith)
    have h3 : (1 + u) * ((1 + u) ^ (d + 3) * (Q / rows.length) + (1 + u) ^ d * η) =
        (1 + u) ^ (d + 4) * (Q / rows.length) + (1 + u) ^ (d + 1) * η := by
      rw [pow_succ _ (d + 3), pow_succ _ d]; ring
    rw [h3] at h2
    linarith [hq.2]

end

/-! ### Composed errors -/

/-- `a'` approximates `a` (of size at most `A`) after `k` roundings; `e` collects underflows. -/
structure Near (a' a A : K) (k : ℕ) (e : K) : Prop where
  size : |a| ≤ A
  err : |a' - a| ≤ ((1 + u) ^ k - 1) * A + e

section
variable {a' a A b' b B e f : K} {k l : ℕ}

theorem Near.rfl' (a : K) : Near a a |a| 0 0 := ⟨le_rfl, by simp⟩

theorem one_le_pow_u (k : ℕ) : (1 : K) ≤ (1 + u) ^ k := one_le_pow₀ (by linarith [u_pos (K := K)])

theorem Near.A_nonneg (h : Near a' a A k e) : 0 ≤ A := (abs_nonneg _).trans h.size

theorem Near.e_nonneg_size (h : Near a' a A k e) : |a'| ≤ (1 + u) ^ k * A + e := by
  have h1 := abs_sub_abs_le_abs_sub a' a
  have := h.err
  have := h.size
  linarith

theorem Near.mono (h : Near a' a A k e) (hkl : k ≤ l) : Near a' a A l e := by
  refine ⟨h.size, h.err.trans ?_⟩
  have : (1 + u : K) ^ k ≤ (1 + u) ^ l := pow_le_pow_right₀ (by linarith [u_pos (K := K)]) hkl
  have := mul_le_mul_of_nonneg_right this h.A_nonneg
  linarith

theorem Near.add (h : Near a' a A k e) (g : Near b' b B k f) : Near (a' + b') (a + b) (A + B) k (e + f) := by
  refine ⟨(abs_add_le _ _).trans (add_le_add h.size g.size), ?_⟩
  have : a' + b' - (a + b) = (a' - a) + (b' - b) := by ring
  rw [this]
  refine (abs_add_le _ _).trans ?_
  have := h.err
  have := g.err
  linarith

theorem Near.neg (h : Near a' a A k e) : Near (-a') (-a) A k e := by
  refine ⟨by rw [abs_neg]; exact h.size, ?_⟩
  rw [show -a' - -a = -(a' - a) by ring, abs_neg]
  exact h.err

theorem Near.sub (h : Near a' a A k e) (g : Near b' b B k f) : Near (a' - b') (a - b) (A + B) k (e + f) := by
  have := h.add g.neg
  rwa [← sub_eq_add_neg, ← sub_eq_add_neg] at this

theorem Near.mul (h : Near a' a A k e) (g : Near b' b B l 0) :
    Near (a' * b') (a * b) (A * B) (k + l) (e * ((1 + u) ^ l * B)) := by
  refine ⟨by rw [abs_mul]; exact mul_le_mul h.size g.size (abs_nonneg _) h.A_nonneg, ?_⟩
  rw [show a' * b' - a * b = (a' - a) * b' + a * (b' - b) by ring]
  refine (abs_add_le _ _).trans ?_
  rw [abs_mul, abs_mul]
  have hb := g.e_nonneg_size
  have hB := g.A_nonneg
  have hA := h.A_nonneg
  rw [add_zero] at hb
  have h1 := mul_le_mul h.err hb (abs_nonneg _) ((abs_nonneg _).trans h.err)
  have h2 := mul_le_mul h.size g.err (abs_nonneg _) hA
  have e1 : (((1 + u) ^ k - 1) * A + e) * ((1 + u) ^ l * B) + A * (((1 + u) ^ l - 1) * B + 0) =
      ((1 + u : K) ^ (k + l) - 1) * (A * B) + e * ((1 + u) ^ l * B) := by rw [pow_add]; ring
  linarith

theorem Near.round (h : Near a' a A k e) : Near (fl64 a') a A (k + 1) ((1 + u) * e + η) := by
  refine ⟨h.size, ?_⟩
  have h1 := fl64_error a'
  have h2 := mul_le_mul_of_nonneg_left h.e_nonneg_size (u_pos (K := K)).le
  have h3 := h.err
  have h4 := abs_sub_le (fl64 a') a' a
  have e1 : u * ((1 + u) ^ k * A + e) + η + (((1 + u) ^ k - 1) * A + e) =
      ((1 + u : K) ^ (k + 1) - 1) * A + ((1 + u) * e + η) := by rw [pow_succ]; ring
  linarith

theorem Near.round_grid (h : Near a' a A k e) (hg : OnGrid a') : Near (fl64 a') a A (k + 1) ((1 + u) * e) := by
  refine ⟨h.size, ?_⟩
  have h1 := fl64_error_grid hg
  have h2 := mul_le_mul_of_nonneg_left h.e_nonneg_size (u_pos (K := K)).le
  have h3 := h.err
  have h4 := abs_sub_le (fl64 a') a' a
  have e1 : u * ((1 + u) ^ k * A + e) + (((1 + u) ^ k - 1) * A + e) =
      ((1 + u : K) ^ (k + 1) - 1) * A + (1 + u) * e := by rw [pow_succ]; ring
  linarith

end

/-- The mean of an adaptive model in double precision. -/
theorem adaptMean_near {m' m M : K} {d : ℕ} (hm : Near m' m M d η) {alpha x y z : K}
    (ha : IsDouble alpha) (hx : IsDouble x) (hy : IsDouble y) (hz : IsDouble z) :
    Near (fl64 (fl64 (fl64 (1 - alpha) * m') + fl64 (alpha * fl64 (fl64 (x + y) - z))))
      ((1 - alpha) * m + alpha * (x + y - z)) (|1 - alpha| * M + |alpha| * (|x| + |y| + |z|)) (max d 1 + 3)
      ((1 + u) * ((1 + u) * (η * ((1 + u) * |1 - alpha|)) + 2 * η)) := by
  have h1d : IsDouble (1 : K) := ⟨1, 0, by norm_num, by norm_num, by simp⟩
  have q1 : Near (fl64 (1 - alpha)) (1 - alpha) |1 - alpha| 1 0 := by
    have := (Near.rfl' (1 - alpha)).round_grid ((onGrid_double h1d).sub (onGrid_double ha))
    simpa using this
  have q2 := (hm.mul q1).round
  rw [mul_comm m', mul_comm m, mul_comm M, pow_one] at q2
  have q3 := ((Near.rfl' x).add (Near.rfl' y)).round_grid ((onGrid_double hx).add (onGrid_double hy))
  have q4 := (q3.sub ((Near.rfl' z).mono (Nat.zero_le (0 + 1)))).round_grid
    ((onGrid_double (fl64_double _)).sub (onGrid_double hz))
  have q5 := ((q4.mul (Near.rfl' alpha))).round
  rw [mul_comm _ alpha, mul_comm _ alpha, mul_comm _ |alpha|] at q5
  have q6 := ((q2.mono (show d + 1 + 1 ≤ max d 1 + 2 by omega)).add
    (q5.mono (show 0 + 1 + 1 + 0 + 1 ≤ max d 1 + 2 by omega))).round_grid
    ((onGrid_double (fl64_double _)).add (onGrid_double (fl64_double _)))
  refine ⟨q6.size, q6.err.trans (le_of_eq ?_)⟩
  ring

end Verif
