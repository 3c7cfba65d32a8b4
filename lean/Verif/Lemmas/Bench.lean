/-
Lemmas about the benchmark loops.
-/
import Verif.Model.Bench
import Verif.Spec.Bench
import Verif.Lemmas.Schwefel

set_option linter.unusedSectionVars false

namespace Verif

open Real Finset

variable {d : ℕ}

theorem getE_ofFn (x : Fin d → ℝ) {i : ℕ} (hi : i < d) : getE (List.ofFn x) i = .ok (x ⟨i, hi⟩) := by
  unfold getE
  rw [List.getElem?_ofFn, dif_pos hi]

theorem getE_short {x : List ℝ} {i : ℕ} (hi : x.length ≤ i) : getE x i = .error .indexError := by
  unfold getE
  rw [List.getElem?_eq_none hi]

theorem loopAdd_ok {is : List ℕ} {g : ℕ → Except PyErr ℝ} {h : ℕ → ℝ} {acc : ℝ}
    (hg : ∀ i ∈ is, g i = .ok (h i)) : loopAdd is g acc = .ok (acc + (is.map h).sum) := by
  induction is generalizing acc with
  | nil => simp [loopAdd]
  | cons i is ih =>
    rw [loopAdd, hg i (by simp)]
    simp only
    rw [ih (fun j hj => hg j (by simp [hj]))]
    simp [add_assoc]

theorem loopMul_ok {is : List ℕ} {g : ℕ → Except PyErr ℝ} {h : ℕ → ℝ} {acc : ℝ}
    (hg : ∀ i ∈ is, g i = .ok (h i)) : loopMul is g acc = .ok (acc * (is.map h).prod) := by
  induction is generalizing acc with
  | nil => simp [loopMul]
  | cons i is ih =>
    rw [loopMul, hg i (by simp)]
    simp only
    rw [ih (fun j hj => hg j (by simp [hj]))]
    simp [mul_assoc]

theorem mem_rangeFrom {a b i : ℕ} : i ∈ rangeFrom a b ↔ a ≤ i ∧ i < b := by
  unfold rangeFrom
  simp only [List.mem_map, List.mem_range]
  constructor
  · rintro ⟨j, hj, rfl⟩; omega
  · intro h; exact ⟨i - a, by omega, by omega⟩

theorem sum_range_list (h : ℕ → ℝ) (n : ℕ) :
    ((List.range n).map h).sum = ∑ i ∈ range n, h i := by
  induction n with
  | zero => simp
  | succ n ih => rw [List.range_succ, List.map_append, List.sum_append, ih, sum_range_succ]; simp

theorem prod_range_list (h : ℕ → ℝ) (n : ℕ) :
    ((List.range n).map h).prod = ∏ i ∈ range n, h i := by
  induction n with
  | zero => simp
  | succ n ih => rw [List.range_succ, List.map_append, List.prod_append, ih, prod_range_succ]; simp

theorem sum_rangeFrom (h : ℕ → ℝ) (a b : ℕ) :
    ((rangeFrom a b).map h).sum = ∑ i ∈ range (b - a), h (i + a) := by
  unfold rangeFrom
  rw [List.map_map, sum_range_list]; rfl

theorem prod_rangeFrom (h : ℕ → ℝ) (a b : ℕ) :
    ((rangeFrom a b).map h).prod = ∏ i ∈ range (b - a), h (i + a) := by
  unfold rangeFrom
  rw [List.map_map, prod_range_list]; rfl

/-- A loop over all coordinates. -/
theorem loop_all (x : Fin d → ℝ) (φ : ℝ → ℝ) (acc : ℝ) :
    loopAdd (List.range d) (fun i => (getE (List.ofFn x) i).map φ) acc = .ok (acc + ∑ i, φ (x i)) := by
  rw [loopAdd_ok (h := fun i => if h : i < d then φ (x ⟨i, h⟩) else 0)]
  · rw [sum_range_list, Finset.sum_range]
    simp
  · intro i hi
    rw [List.mem_range] at hi
    rw [getE_ofFn x hi]
    simp [hi, Except.map]

/-- The same loop written with `range(1, d + 1)` and `x[i-1]`. -/
theorem loop_all' (x : Fin d → ℝ) (φ : ℕ → ℝ → ℝ) (acc : ℝ) :
    loopAdd (rangeFrom 1 (d + 1)) (fun i => (getE (List.ofFn x) (i - 1)).map (φ i)) acc =
      .ok (acc + ∑ i : Fin d, φ (i + 1) (x i)) := by
  rw [loopAdd_ok (h := fun i => if h : i - 1 < d then φ i (x ⟨i - 1, h⟩) else 0)]
  · rw [sum_rangeFrom, Nat.add_sub_cancel, Finset.sum_range]
    simp
  · intro i hi
    rw [mem_rangeFrom] at hi
    have : i - 1 < d := by omega
    rw [getE_ofFn x this]
    simp [this, Except.map]

theorem loopMul_all' (x : Fin d → ℝ) (φ : ℕ → ℝ → ℝ) (acc : ℝ) :
    loopMul (rangeFrom 1 (d + 1)) (fun i => (getE (List.ofFn x) (i - 1)).map (φ i)) acc =
      .ok (acc * ∏ i : Fin d, φ (i + 1) (x i)) := by
  rw [loopMul_ok (h := fun i => if h : i - 1 < d then φ i (x ⟨i - 1, h⟩) else 1)]
  · rw [prod_rangeFrom, Nat.add_sub_cancel, Finset.prod_range]
    simp
  · intro i hi
    rw [mem_rangeFrom] at hi
    have : i - 1 < d := by omega
    rw [getE_ofFn x this]
    simp [this, Except.map]

/-- A loop over all coordinates but the first. -/
theorem loop_tail (x : Fin d → ℝ) (φ : ℝ → ℝ) (acc : ℝ) :
    loopAdd (rangeFrom 1 d) (fun i => (getE (List.ofFn x) i).map φ) acc =
      .ok (acc + ∑ i : Fin d, if (i : ℕ) = 0 then 0 else φ (x i)) := by
  rw [loopAdd_ok (h := fun i => if h : i < d then φ (x ⟨i, h⟩) else 0)]
  · rw [sum_rangeFrom]
    congr 2
    rw [← Fin.sum_univ_eq_sum_range (fun i => if h : i + 1 < d then φ (x ⟨i + 1, h⟩) else 0)]
    cases d with
    | zero => simp
    | succ n =>
      rw [Fin.sum_univ_succ]
      simp only [Fin.val_zero, if_true, zero_add]
      apply Finset.sum_congr rfl
      intro i _
      simp
      rfl
  · intro i hi
    rw [mem_rangeFrom] at hi
    rw [getE_ofFn x hi.2]
    simp [hi.2, Except.map]

theorem foldl_add_eq (is : List ℕ) (h : ℕ → ℝ) (acc : ℝ) :
    is.foldl (fun s k => s + h k) acc = acc + (is.map h).sum := by
  induction is generalizing acc with
  | nil => simp
  | cons i is ih => rw [List.foldl_cons, ih]; simp [add_assoc]

theorem pyRound_zero : pyRound 0 = 0 := by
  unfold pyRound
  simp

/-- Whatever the tie-breaking, the distance to `round` is the distance to the nearest integer. -/
theorem abs_sub_pyRound (y : ℝ) : |y - pyRound y| = Spec.nearest y := by
  unfold pyRound Spec.nearest
  have h0 := Int.fract_nonneg y
  have h1 := Int.fract_lt_one y
  have hf : y - ⌊y⌋ = Int.fract y := Int.self_sub_floor y
  split
  · rename_i h
    rw [hf] at h ⊢
    rw [abs_of_nonneg h0, min_eq_left (by linarith)]
  · rename_i h
    have e : y - ((⌊y⌋ + 1 : ℤ) : ℝ) = -(1 - Int.fract y) := by push_cast; rw [← hf]; ring
    split
    · rename_i h2
      rw [hf] at h2
      rw [e, abs_neg, abs_of_nonneg (by linarith), min_eq_right (by linarith)]
    · rename_i h2
      rw [hf] at h h2
      have hh : Int.fract y = 1 / 2 := by linarith
      split
      · rw [hf, hh]; norm_num
      · rw [e, hh]; norm_num

theorem nearest_nonneg (y : ℝ) : 0 ≤ Spec.nearest y := by
  unfold Spec.nearest
  have h0 := Int.fract_nonneg y
  have h1 := Int.fract_lt_one y
  exact le_min h0 (by linarith)

theorem nearest_zero : Spec.nearest 0 = 0 := by simp [Spec.nearest]

theorem pyMod_bounds (z : ℝ) : 0 ≤ pyMod z 500 ∧ pyMod z 500 < 500 ∧
    pyMod z 500 = 500 * Int.fract (z / 500) := by
  have e : pyMod z 500 = 500 * Int.fract (z / 500) := by
    unfold pyMod
    rw [← Int.self_sub_floor]; ring
  have h0 := Int.fract_nonneg (z / 500)
  have h1 := Int.fract_lt_one (z / 500)
  refine ⟨by rw [e]; linarith, by rw [e]; linarith, e⟩

theorem rpow_half (y : ℝ) : y ^ (0.5 : ℝ) = √ y := by
  rw [sqrt_eq_rpow]; norm_num

/-- The Schwefel term never exceeds `418.98289`, provided there are at least six variables. -/
theorem modSchF_lt {n : ℕ} (hn : 6 ≤ n) (z : ℝ) : modSchF z n < 418.98289 := by
  have hn' : (6 : ℝ) ≤ n := by exact_mod_cast hn
  unfold modSchF
  rw [rpow_half]
  split
  · rename_i h
    rcases le_total 0 z with hz | hz
    · rw [abs_of_nonneg hz] at h ⊢
      exact mul_sin_sqrt_lt hz h
    · rw [abs_of_nonpos hz] at h ⊢
      have := neg_mul_sin_sqrt_lt (w := -z) (by linarith) h
      linarith
  · rename_i habs
    obtain ⟨m0, m1, _⟩ := pyMod_bounds z
    split
    · rename_i hz
      rw [abs_of_nonneg (by linarith : 0 ≤ 500 - pyMod z 500)]
      have h1 := mul_sin_sqrt_lt (w := 500 - pyMod z 500) (by linarith) (by linarith)
      have h2 : 0 ≤ (z - 500) ^ 2 / 10000 * n := by positivity
      linarith
    · rename_i hz
      have hz' : z < -500 := by
        by_contra hcon
        push Not at hcon hz
        exact habs (abs_le.2 ⟨hcon, hz⟩)
      have hs := neg_one_le_sin (√ |pyMod |z| 500 - 500|)
      -- `z + 500` is at least `500 - p` away from 0
      have hk : (⌊z / 500⌋ : ℝ) ≤ -2 := by
        have hlt : z / 500 < -1 := by rw [div_lt_iff₀ (by norm_num)]; linarith
        have : ⌊z / 500⌋ < -1 := Int.floor_lt.2 (by exact_mod_cast hlt)
        have : ⌊z / 500⌋ ≤ -2 := by omega
        exact_mod_cast this
      have hq : 500 - pyMod z 500 ≤ -(z + 500) := by
        unfold pyMod
        linarith
      have h1 : (500 - pyMod z 500) ^ 2 ≤ (z + 500) ^ 2 := by
        rw [← neg_sq (z + 500)]
        exact pow_le_pow_left₀ (by linarith) hq 2
      have h2 : (500 - pyMod z 500) ^ 2 * 6 ≤ (z + 500) ^ 2 * n :=
        mul_le_mul h1 hn' (by norm_num) (sq_nonneg _)
      have h3 : (pyMod z 500 - 500) * sin (√ |pyMod |z| 500 - 500|) ≤ 500 - pyMod z 500 := by
        nlinarith
      nlinarith [sq_nonneg (500 - pyMod z 500 - 2500 / 3)]

end Verif
