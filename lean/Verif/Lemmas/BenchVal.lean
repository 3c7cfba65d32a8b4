/-
The values computed by the benchmark functions.
-/
import Verif.Lemmas.Bench

set_option linter.unusedSectionVars false

namespace Verif

open Real Finset

variable {d : ℕ} (x : Fin d → ℝ)

namespace Bench

theorem bentCigar_val (hd : 1 ≤ d) :
    bentCigar d (List.ofFn x) = .ok ((10 ^ 6 + 1) * ∑ i, x i ^ 2) := by
  unfold bentCigar
  rw [getE_ofFn x hd]
  simp only
  rw [loop_tail]
  simp only [Except.ok.injEq]
  have : x ⟨0, hd⟩ ^ 2 + ∑ i : Fin d, (if (i : ℕ) = 0 then 0 else x i ^ 2) = ∑ i, x i ^ 2 := by
    cases d with
    | zero => omega
    | succ n => rw [Fin.sum_univ_succ, Fin.sum_univ_succ (fun i => x i ^ 2)]; simp
  rw [this]; ring

theorem discus_val (hd : 1 ≤ d) : discus d (List.ofFn x) = .ok (Spec.discus x) := by
  unfold discus
  rw [getE_ofFn x hd]
  simp only
  rw [loop_tail]
  simp only [Except.ok.injEq]
  unfold Spec.discus
  cases d with
  | zero => omega
  | succ n => rw [Fin.sum_univ_succ, Fin.sum_univ_succ]; simp

theorem rosenbrock_val : rosenbrock d (List.ofFn x) = .ok (Spec.rosenbrock x) := by
  unfold rosenbrock
  rw [loopAdd_ok (h := fun i => if h : i + 1 < d then
    100 * (x ⟨i, by omega⟩ ^ 2 - x ⟨i + 1, h⟩) ^ 2 + (x ⟨i, by omega⟩ - 1) ^ 2 else 0)]
  · rw [sum_range_list, zero_add]
    unfold Spec.rosenbrock
    rw [← Fin.sum_univ_eq_sum_range]
    cases d with
    | zero => simp
    | succ n =>
      rw [Fin.sum_univ_castSucc]
      simp
      rfl
  · intro i hi
    rw [List.mem_range] at hi
    unfold rosenbrockTerm
    rw [getE_ofFn x (by omega)]
    simp only
    rw [getE_ofFn x (by omega : i + 1 < d)]
    simp only
    rw [dif_pos (by omega)]

theorem ackley_val : ackley d (List.ofFn x) = .ok (Spec.ackley x) := by
  unfold ackley
  rw [loop_all x (· ^ 2)]
  simp only
  rw [loop_all x (fun v => cos (v * 2 * π))]
  simp only [zero_add]
  unfold Spec.ackley
  have : ∀ i, cos (x i * 2 * π) = cos (2 * π * x i) := fun i => by congr 1; ring
  simp only [this, div_eq_inv_mul, mul_one]

theorem rastrigin_val : rastrigin (List.ofFn x) = .ok (Spec.rastrigin x) := by
  unfold rastrigin
  rw [List.length_ofFn, loop_all x (fun v => v ^ 2 - 10 * cos (2 * π * v) + 10), zero_add]
  rfl

theorem elliptic_val (hd : 2 ≤ d) : elliptic (List.ofFn x) = .ok (Spec.elliptic x) := by
  unfold elliptic
  simp only [List.length_ofFn]
  have hne : ¬ d = 1 := by omega
  simp only [if_neg hne]
  rw [loop_all' x (fun i v => ((10 : ℝ) ^ 6) ^ (((i - 1 : ℕ) : ℝ) / ((d - 1 : ℕ) : ℝ)) * v ^ 2),
    zero_add]
  unfold Spec.elliptic
  simp only [Nat.add_sub_cancel]
  rw [Nat.cast_sub (by omega), Nat.cast_one]

theorem elliptic_one (v : ℝ) : elliptic [v] = .error .zeroDivision := by
  unfold elliptic
  have : rangeFrom 1 ([v].length + 1) = [1] := rfl
  rw [this, loopAdd]
  simp

theorem weierstrass_val : weierstrass d (List.ofFn x) = .ok (
    ∑ i, (∑ k ∈ range 20, 0.5 ^ k * cos (2 * π * 3 ^ k * (x i + 0.5)))
      - d * (d * ∑ k ∈ range 20, 0.5 ^ k * cos (2 * π * 3 ^ k * 0.5))) := by
  unfold weierstrass
  rw [loop_all x (weierstrassTerm d), zero_add]
  congr 1
  unfold weierstrassTerm
  simp only [foldl_add_eq _ (fun k => 0.5 ^ k * cos (2 * π * 3 ^ k * 0.5)), sum_range_list, zero_add]
  rw [sum_sub_distrib, sum_const, card_univ, Fintype.card_fin, nsmul_eq_mul]
  congr 1
  apply sum_congr rfl
  intro i _
  rw [foldl_add_eq _ (fun k => 0.5 ^ k * cos (2 * π * 3 ^ k * (x i + 0.5))), sum_range_list, zero_add]

theorem griewank_val : griewank d (List.ofFn x) = .ok (∑ i, x i ^ 2 / 4000) := by
  unfold griewank
  rw [loop_all x (fun v => v ^ 2 / 4000)]
  simp only [zero_add]
  rw [loopMul_ok (h := fun i => if h : i - 1 < d then cos (x ⟨i - 1, h⟩ / √ i) + 1 else 0)]
  · simp
  · intro i hi
    rw [mem_rangeFrom] at hi
    have : i - 1 < d := by omega
    rw [getE_ofFn x this]
    simp [this, Except.map]

theorem modSchwefel_val : modSchwefel (List.ofFn x) =
    .ok (418.9829 * d - ∑ i, modSchF (x i + 420.9687462275036) d) := by
  unfold modSchwefel
  simp only [List.length_ofFn]
  rw [loop_all' x (fun _ v => -modSchF (v + 420.9687462275036) d)]
  simp only [sum_neg_distrib]
  rw [sub_eq_add_neg]

theorem katsuuraSum_eq (v : ℝ) : katsuuraSum v = ∑ j ∈ Icc 1 31, Spec.nearest (2 ^ j * v) / 2 ^ j := by
  unfold katsuuraSum
  rw [foldl_add_eq _ (fun j => |v * 2 ^ j - pyRound (v * 2 ^ j)| / 2 ^ j), sum_rangeFrom, zero_add]
  rw [show Icc 1 31 = Ico 1 32 from rfl, sum_Ico_eq_sum_range]
  apply sum_congr rfl
  intro j _
  simp only [abs_sub_pyRound]
  rw [mul_comm v, Nat.add_comm]

theorem katsuura_val : katsuura d (List.ofFn x) = .ok (
    10 / (d : ℝ) ^ 2 * ∏ i : Fin d, (1 + (((i : ℕ) : ℝ) + 1) *
      ∑ j ∈ Icc 1 31, Spec.nearest (2 ^ j * x i) / 2 ^ j) ^ (10 / (d : ℝ) ^ (1.2 : ℝ))
    - 10 / (d : ℝ) ^ 2) := by
  unfold katsuura
  rw [loopMul_all' x (fun i v => (1 + i * katsuuraSum v) ^ (10 / (d : ℝ) ^ (1.2 : ℝ)))]
  simp only [katsuuraSum_eq, one_mul, Nat.cast_add, Nat.cast_one]
  congr 1
  ring

theorem loop_id (acc : ℝ) :
    loopAdd (rangeFrom 1 (d + 1)) (fun i => getE (List.ofFn x) (i - 1)) acc =
      .ok (acc + ∑ i : Fin d, x i) := by
  have := loop_all' x (fun _ v => v) acc
  rw [← this]
  congr 1
  funext i
  cases getE (List.ofFn x) (i - 1) <;> rfl

theorem happycat_val : happycat d (List.ofFn x) = .ok (Spec.happycat x) := by
  unfold happycat
  rw [loop_all' x (fun _ v => v ^ 2)]
  simp only
  rw [loop_id]
  simp only [zero_add]
  unfold Spec.happycat
  rw [← add_assoc, show (0.25 : ℝ) = 1 / 4 by norm_num]

theorem hgbat_val : hgbat d (List.ofFn x) = .ok (Spec.hgbat x) := by
  unfold hgbat
  rw [loop_all' x (fun _ v => v ^ 2)]
  simp only
  rw [loop_id]
  simp only [zero_add]
  unfold Spec.hgbat
  rw [show (0.5 : ℝ) = 1 / 2 by norm_num]

theorem expandedScaffer_val (hd : 1 ≤ d) :
    expandedScaffer d (List.ofFn x) = .ok (Spec.expandedScaffer x) := by
  unfold expandedScaffer
  rw [loopAdd_ok (h := fun i => if h : i < d then
    scafferF6 (x ⟨i - 1, by omega⟩) (x ⟨i, h⟩) else 0)]
  · simp only [zero_add]
    unfold scafferTerm
    rw [getE_ofFn x (by omega : d - 1 < d)]
    simp only
    rw [getE_ofFn x (by omega : 0 < d)]
    simp only [Except.ok.injEq]
    rw [sum_rangeFrom]
    unfold Spec.expandedScaffer
    cases d with
    | zero => omega
    | succ n =>
      rw [Fin.sum_univ_castSucc, ← Fin.sum_univ_eq_sum_range (fun i => if h : i + 1 < n + 1 then
        scafferF6 (x ⟨i + 1 - 1, by omega⟩) (x ⟨i + 1, h⟩) else 0)]
      simp only [Nat.add_sub_cancel]
      congr 1
      · apply sum_congr rfl
        intro i _
        have hi : (i : ℕ) + 1 < n + 1 := by omega
        rw [dif_pos hi]
        unfold scafferF6 Spec.scafferG
        have e1 : (⟨(i : ℕ), by omega⟩ : Fin (n + 1)) = i.castSucc := rfl
        have e2 : (⟨((i.castSucc : Fin (n + 1)) + 1 : ℕ) % (n + 1),
            Nat.mod_lt _ (by omega)⟩ : Fin (n + 1)) = ⟨(i : ℕ) + 1, hi⟩ := by
          apply Fin.ext
          simp only [Fin.val_castSucc]
          exact Nat.mod_eq_of_lt hi
        rw [e1, e2]
      · unfold scafferF6 Spec.scafferG
        have e1 : (⟨n, by omega⟩ : Fin (n + 1)) = Fin.last n := rfl
        have e2 : (⟨((Fin.last n : Fin (n + 1)) + 1 : ℕ) % (n + 1),
            Nat.mod_lt _ (by omega)⟩ : Fin (n + 1)) = ⟨0, by omega⟩ := by
          apply Fin.ext
          simp
        rw [e1, e2]
  · intro i hi
    rw [mem_rangeFrom] at hi
    unfold scafferTerm
    rw [getE_ofFn x (by omega : i - 1 < d)]
    simp only
    rw [getE_ofFn x hi.2]
    simp only
    rw [dif_pos hi.2]

end Bench

end Verif
