/-
C42, C43: the continuous benchmark functions.
-/
import Verif.Lemmas.BenchVal
import Mathlib.Algebra.Order.BigOperators.Ring.Finset

set_option linter.unusedSectionVars false

namespace Verif

open Real Finset Bench

/-! ## C43: which functions are computed -/

section named
variable {d : ℕ} (x : Fin d → ℝ)

/-- **C43** (the functions that are the named ones) for every dimension accepted by the constructor
and every point.  Missing: bent cigar, Weierstrass, Griewank, modified Schwefel and Katsuura, which
are not the named functions (`C43_refuted_*`), and elliptic in one dimension. -/
theorem C43_named_functions_partial {dim : ℤ} (hd : Bench.new dim = .ok d) :
    discus d (List.ofFn x) = .ok (Spec.discus x) ∧
    rosenbrock d (List.ofFn x) = .ok (Spec.rosenbrock x) ∧
    ackley d (List.ofFn x) = .ok (Spec.ackley x) ∧
    rastrigin (List.ofFn x) = .ok (Spec.rastrigin x) ∧
    (d ≠ 1 → elliptic (List.ofFn x) = .ok (Spec.elliptic x)) ∧
    happycat d (List.ofFn x) = .ok (Spec.happycat x) ∧
    hgbat d (List.ofFn x) = .ok (Spec.hgbat x) ∧
    expandedScaffer d (List.ofFn x) = .ok (Spec.expandedScaffer x) := by
  have h1 : 1 ≤ d := by
    unfold Bench.new at hd
    split at hd
    · rename_i h
      have := Except.ok.inj hd
      simp only [List.mem_cons, List.not_mem_nil, or_false] at h
      omega
    · cases hd
  exact ⟨discus_val x h1, rosenbrock_val x, ackley_val x, rastrigin_val x,
    fun h => elliptic_val x (by omega), happycat_val x, hgbat_val x, expandedScaffer_val x h1⟩

example : Bench.new 30 = .ok 30 := by decide

/-- **C43** the elliptic function of one variable raises. -/
theorem C43_elliptic_one_variable (v : ℝ) : elliptic [v] = .error .zeroDivision := elliptic_one v

/-- **C43** `bent_cigar_function` returns `(10^6 + 1) Σ x²`. -/
theorem C43_bent_cigar_value (hd : 1 ≤ d) :
    bentCigar d (List.ofFn x) = .ok ((10 ^ 6 + 1) * ∑ i, x i ^ 2) := bentCigar_val x hd

/-- **C43** it is not the bent cigar function, in any dimension. -/
theorem C43_refuted_bent_cigar (hd : 1 ≤ d) :
    ∃ x : Fin d → ℝ, bentCigar d (List.ofFn x) ≠ .ok (Spec.bentCigar x) := by
  refine ⟨fun i => if (i : ℕ) = 0 then 1 else 0, ?_⟩
  rw [bentCigar_val _ hd]
  unfold Spec.bentCigar
  cases d with
  | zero => omega
  | succ n =>
    rw [Fin.sum_univ_succ, Fin.sum_univ_succ]
    simp

/-- **C43** `griewank_function` returns `Σ x² / 4000`: the product is never computed. -/
theorem C43_griewank_value : griewank d (List.ofFn x) = .ok (∑ i, x i ^ 2 / 4000) := griewank_val x

theorem C43_refuted_griewank (hd : 1 ≤ d) :
    ∃ x : Fin d → ℝ, griewank d (List.ofFn x) ≠ .ok (Spec.griewank x) := by
  refine ⟨fun i => if (i : ℕ) = 0 then π else 0, ?_⟩
  rw [griewank_val]
  intro h
  have := Except.ok.inj h
  unfold Spec.griewank at this
  have hp : ∏ i : Fin d, cos ((if (i : ℕ) = 0 then π else 0) / √ (((i : ℕ) : ℝ) + 1)) = -1 := by
    cases d with
    | zero => omega
    | succ n => rw [Fin.prod_univ_succ]; simp
  rw [hp] at this
  linarith

/-- **C43** `weierstrass_function`: 20 instead of 21 terms, and the constant is subtracted once per
variable, multiplied by the dimension. -/
theorem C43_weierstrass_value : weierstrass d (List.ofFn x) = .ok (
    ∑ i, (∑ k ∈ range 20, 0.5 ^ k * cos (2 * π * 3 ^ k * (x i + 0.5)))
      - d * (d * ∑ k ∈ range 20, 0.5 ^ k * cos (2 * π * 3 ^ k * 0.5))) := weierstrass_val x

theorem cos_odd_pi (k : ℕ) : cos (2 * π * 3 ^ k * 0.5) = -1 := by
  have : 2 * π * 3 ^ k * 0.5 = ((3 ^ k : ℕ) : ℝ) * π := by push_cast; ring
  rw [this, cos_nat_mul_pi]
  have ho : Odd (3 ^ k) := Odd.pow (by decide)
  rw [ho.neg_one_pow]

theorem weierstrass_const (n : ℕ) :
    ∑ k ∈ range n, (0.5 : ℝ) ^ k * cos (2 * π * 3 ^ k * 0.5) = -(2 - 2 * 0.5 ^ n) := by
  simp only [cos_odd_pi]
  induction n with
  | zero => simp
  | succ n ih => rw [sum_range_succ, ih, pow_succ]; ring

/-- **C43** at the origin, the global minimum 0 of the Weierstrass function, it returns
`d (d - 1) (2 - 2^-19)`. -/
theorem C43_weierstrass_origin : weierstrass d (List.ofFn (fun _ : Fin d => (0 : ℝ))) =
      .ok (d * (d - 1) * (2 - 1 / 2 ^ 19)) ∧ Spec.weierstrass (fun _ : Fin d => (0 : ℝ)) = 0 := by
  constructor
  · rw [weierstrass_val]
    simp only [zero_add, weierstrass_const, sum_const, card_univ, Fintype.card_fin, nsmul_eq_mul]
    congr 1
    norm_num
    ring
  · unfold Spec.weierstrass
    simp only [zero_add, weierstrass_const, sum_const, card_univ, Fintype.card_fin, nsmul_eq_mul]
    ring

theorem C43_refuted_weierstrass (hd : 2 ≤ d) :
    ∃ x : Fin d → ℝ, weierstrass d (List.ofFn x) ≠ .ok (Spec.weierstrass x) := by
  refine ⟨fun _ => 0, ?_⟩
  obtain ⟨h1, h2⟩ := C43_weierstrass_origin (d := d)
  rw [h1, h2]
  intro h
  have := Except.ok.inj h
  have hd' : (2 : ℝ) ≤ d := by exact_mod_cast hd
  have : (0 : ℝ) < d * (d - 1) * (2 - 1 / 2 ^ 19) := by
    apply mul_pos (mul_pos (by linarith) (by linarith)); norm_num
  linarith

/-- **C43** modified Schwefel is computed correctly as long as every `x i + 420.96...` lies in
`[-500, 500]`. -/
theorem C43_schwefel_inside_partial (h : ∀ i, |x i + 420.9687462275036| ≤ 500) :
    modSchwefel (List.ofFn x) = .ok (Spec.modSchwefel x) := by
  rw [modSchwefel_val]
  unfold Spec.modSchwefel
  congr 2
  apply sum_congr rfl
  intro i _
  unfold modSchF Spec.schwefelG
  rw [if_pos (h i), if_pos (h i), rpow_half]

/-- **C43** outside, the penalty is multiplied by the dimension instead of divided. -/
theorem C43_refuted_schwefel (hd : 2 ≤ d) :
    ∃ x : Fin d → ℝ, modSchwefel (List.ofFn x) ≠ .ok (Spec.modSchwefel x) := by
  refine ⟨fun _ => 1000 - 420.9687462275036, ?_⟩
  rw [modSchwefel_val]
  intro h
  have := Except.ok.inj h
  unfold Spec.modSchwefel at this
  simp only [sub_add_cancel, sum_const, card_univ, Fintype.card_fin, nsmul_eq_mul] at this
  have hd' : (2 : ℝ) ≤ d := by exact_mod_cast hd
  have e1 : modSchF 1000 d = (500 - pyMod 1000 500) * sin (√ |500 - pyMod 1000 500|) - 25 * d := by
    unfold modSchF
    rw [if_neg (by norm_num), if_pos (by norm_num)]
    norm_num
  have e2 : Spec.schwefelG d 1000 =
      (500 - pyMod 1000 500) * sin (√ |500 - pyMod 1000 500|) - 250000 / (10000 * d) := by
    unfold Spec.schwefelG Spec.mod500
    rw [if_neg (by norm_num), if_pos (by norm_num), (pyMod_bounds 1000).2.2]
    norm_num
  rw [e1, e2] at this
  have h3 : (d : ℝ) * (250000 / (10000 * d)) = d * (25 * d) := by linarith
  have h4 : (d : ℝ) * (250000 / (10000 * d)) = 25 := by field_simp; norm_num
  rw [h4] at h3
  nlinarith

/-- **C43** `katsuura_function` sums 31 instead of 32 terms; it is not the Katsuura function. -/
theorem C43_katsuura_value : katsuura d (List.ofFn x) = .ok (
    10 / (d : ℝ) ^ 2 * ∏ i : Fin d, (1 + (((i : ℕ) : ℝ) + 1) *
      ∑ j ∈ Icc 1 31, Spec.nearest (2 ^ j * x i) / 2 ^ j) ^ (10 / (d : ℝ) ^ (1.2 : ℝ))
    - 10 / (d : ℝ) ^ 2) := katsuura_val x

theorem nearest_half : Spec.nearest (1 / 2) = 1 / 2 := by
  unfold Spec.nearest
  have : Int.fract (1 / 2 : ℝ) = 1 / 2 := by
    rw [Int.fract_eq_iff]
    exact ⟨by norm_num, by norm_num, 0, by norm_num⟩
  rw [this]; norm_num

theorem C43_refuted_katsuura (hd : 1 ≤ d) :
    ∃ x : Fin d → ℝ, katsuura d (List.ofFn x) ≠ .ok (Spec.katsuura x) := by
  refine ⟨fun _ => 1 / 2 ^ 33, ?_⟩
  rw [katsuura_val]
  intro h
  have := Except.ok.inj h
  unfold Spec.katsuura at this
  have hd' : (1 : ℝ) ≤ d := by exact_mod_cast hd
  have hd2 : (0 : ℝ) < 10 / (d : ℝ) ^ 2 := by positivity
  set S := ∑ j ∈ Icc 1 31, Spec.nearest (2 ^ j * (1 / 2 ^ 33)) / 2 ^ j with hS
  have hS0 : 0 ≤ S := sum_nonneg (fun j _ => div_nonneg (nearest_nonneg _) (by positivity))
  have hS2 : ∑ j ∈ Icc 1 32, Spec.nearest (2 ^ j * (1 / 2 ^ 33)) / 2 ^ j = S + (1 / 2) / 2 ^ 32 := by
    rw [show Icc 1 32 = Icc 1 (31 + 1) from rfl, sum_Icc_succ_top (by norm_num)]
    congr 1
    rw [show (2 : ℝ) ^ (31 + 1) * (1 / 2 ^ 33) = 1 / 2 by norm_num, nearest_half]
  beta_reduce at this
  rw [hS2] at this
  have hlt : ∏ i : Fin d, (1 + (((i : ℕ) : ℝ) + 1) * S) ^ (10 / (d : ℝ) ^ (1.2 : ℝ)) <
      ∏ i : Fin d, (1 + (((i : ℕ) : ℝ) + 1) * (S + 1 / 2 / 2 ^ 32)) ^ (10 / (d : ℝ) ^ (1.2 : ℝ)) := by
    have hpos : ∀ i : Fin d, 0 < (1 + (((i : ℕ) : ℝ) + 1) * S) ^ (10 / (d : ℝ) ^ (1.2 : ℝ)) := by
      intro i; positivity
    have hlt : ∀ i : Fin d, (1 + (((i : ℕ) : ℝ) + 1) * S) ^ (10 / (d : ℝ) ^ (1.2 : ℝ)) <
        (1 + (((i : ℕ) : ℝ) + 1) * (S + 1 / 2 / 2 ^ 32)) ^ (10 / (d : ℝ) ^ (1.2 : ℝ)) := by
      intro i
      apply rpow_lt_rpow (by positivity)
      · have : (0 : ℝ) < ((i : ℕ) : ℝ) + 1 := by positivity
        nlinarith
      · positivity
    exact prod_lt_prod_of_nonempty (fun i _ => hpos i) (fun i _ => hlt i) ⟨⟨0, hd⟩, mem_univ _⟩
  nlinarith

end named

/-! ## C42: lower bounds and optima -/

section optimum
variable {d : ℕ}

theorem discus_nonneg (x : Fin d → ℝ) : 0 ≤ Spec.discus x :=
  sum_nonneg (fun i _ => mul_nonneg (by split <;> norm_num) (sq_nonneg _))

theorem rosenbrock_nonneg (x : Fin d → ℝ) : 0 ≤ Spec.rosenbrock x :=
  sum_nonneg (fun i _ => by split <;> positivity)

theorem ackley_nonneg (x : Fin d → ℝ) : 0 ≤ Spec.ackley x := by
  unfold Spec.ackley
  have h1 : exp (-0.2 * √ (1 / d * ∑ i, x i ^ 2)) ≤ 1 := by
    rw [exp_le_one_iff]
    have := sqrt_nonneg (1 / d * ∑ i, x i ^ 2)
    linarith
  have h2 : exp (1 / d * ∑ i, cos (2 * π * x i)) ≤ exp 1 := by
    rw [exp_le_exp]
    have hs : ∑ i, cos (2 * π * x i) ≤ d := by
      calc ∑ i, cos (2 * π * x i) ≤ ∑ _i : Fin d, (1 : ℝ) := sum_le_sum (fun i _ => cos_le_one _)
        _ = d := by simp
    rcases Nat.eq_zero_or_pos d with h0 | h0
    · subst h0; simp
    · have : (0 : ℝ) < d := by exact_mod_cast h0
      rw [one_div, inv_mul_le_iff₀ this, mul_one]; exact hs
  linarith

theorem rastrigin_nonneg (x : Fin d → ℝ) : 0 ≤ Spec.rastrigin x :=
  sum_nonneg (fun i _ => by
    have := cos_le_one (2 * π * x i)
    have := sq_nonneg (x i)
    linarith)

theorem elliptic_nonneg (x : Fin d → ℝ) : 0 ≤ Spec.elliptic x :=
  sum_nonneg (fun i _ => by positivity)

theorem half_square (hd : 1 ≤ d) (x : Fin d → ℝ) :
    (0.5 * ∑ i, x i ^ 2 + ∑ i, x i) / d + 0.5 = (∑ i, (x i + 1) ^ 2) / (2 * d) := by
  have hd' : (d : ℝ) ≠ 0 := by
    have : (1 : ℝ) ≤ d := by exact_mod_cast hd
    linarith
  have : ∑ i, (x i + 1) ^ 2 = ∑ i, x i ^ 2 + 2 * ∑ i, x i + d := by
    simp only [add_sq, sum_add_distrib, mul_one, one_pow, mul_sum]
    simp
  rw [this]
  field_simp
  ring

theorem happycat_nonneg (hd : 1 ≤ d) (x : Fin d → ℝ) : 0 ≤ Spec.happycat x := by
  unfold Spec.happycat
  rw [add_assoc, half_square hd]
  positivity

theorem hgbat_nonneg (hd : 1 ≤ d) (x : Fin d → ℝ) : 0 ≤ Spec.hgbat x := by
  unfold Spec.hgbat
  rw [add_assoc, half_square hd]
  positivity

theorem scafferG_nonneg (x y : ℝ) : 0 ≤ Spec.scafferG x y := by
  unfold Spec.scafferG
  have h1 : 1 ≤ (1 + 0.001 * (x ^ 2 + y ^ 2)) ^ 2 := by
    apply one_le_pow₀
    nlinarith [sq_nonneg x, sq_nonneg y]
  have h2 : -0.5 ≤ (sin (√ (x ^ 2 + y ^ 2)) ^ 2 - 0.5) / (1 + 0.001 * (x ^ 2 + y ^ 2)) ^ 2 := by
    rw [le_div_iff₀ (by linarith)]
    nlinarith [sq_nonneg (sin (√ (x ^ 2 + y ^ 2)))]
  linarith

theorem expandedScaffer_nonneg (x : Fin d → ℝ) : 0 ≤ Spec.expandedScaffer x :=
  sum_nonneg (fun _ _ => scafferG_nonneg _ _)

theorem prod_katsuura_ge (x : Fin d → ℝ) : 1 ≤ ∏ i : Fin d, (1 + (((i : ℕ) : ℝ) + 1) *
    ∑ j ∈ Icc 1 31, Spec.nearest (2 ^ j * x i) / 2 ^ j) ^ (10 / (d : ℝ) ^ (1.2 : ℝ)) := by
  have : ∀ i : Fin d, 1 ≤ (1 + (((i : ℕ) : ℝ) + 1) *
      ∑ j ∈ Icc 1 31, Spec.nearest (2 ^ j * x i) / 2 ^ j) ^ (10 / (d : ℝ) ^ (1.2 : ℝ)) := by
    intro i
    apply one_le_rpow
    · have : 0 ≤ ∑ j ∈ Icc 1 31, Spec.nearest (2 ^ j * x i) / 2 ^ j :=
        sum_nonneg (fun j _ => div_nonneg (nearest_nonneg _) (by positivity))
      have : 0 ≤ (((i : ℕ) : ℝ) + 1) * ∑ j ∈ Icc 1 31, Spec.nearest (2 ^ j * x i) / 2 ^ j := by
        positivity
      linarith
    · positivity
  calc (1 : ℝ) = ∏ _i : Fin d, (1 : ℝ) := by simp
    _ ≤ _ := prod_le_prod (fun _ _ => zero_le_one) (fun i _ => this i)

theorem schwefel_pos (hd : 6 ≤ d) (x : Fin d → ℝ) :
    0 < 418.9829 * (d : ℝ) - ∑ i, modSchF (x i + 420.9687462275036) d := by
  have h : ∑ i, modSchF (x i + 420.9687462275036) d ≤ ∑ _i : Fin d, (418.98289 : ℝ) :=
    sum_le_sum (fun i _ => (modSchF_lt hd _).le)
  rw [sum_const, card_univ, Fintype.card_fin, nsmul_eq_mul] at h
  have : (6 : ℝ) ≤ d := by exact_mod_cast hd
  linarith

/-- Every list is the list of its entries. -/
theorem list_ofFn (z : List ℝ) : ∃ x : Fin z.length → ℝ, z = List.ofFn x :=
  ⟨z.get, (List.ofFn_get z).symm⟩

theorem list_ofFn' {z : List ℝ} (h : z.length = d) : ∃ x : Fin d → ℝ, z = List.ofFn x := by
  subst h; exact list_ofFn z

theorem evalAt_ok {z : Except PyErr (List ℝ)} {f : List ℝ → Except PyErr ℝ} {b v : ℝ}
    (h : evalAt z f b = .ok v) : ∃ z', z = .ok z' ∧ ∃ w, f z' = .ok w ∧ v = w + b := by
  unfold evalAt at h
  split at h
  · cases h
  · rename_i z'
    cases hf : f z' with
    | error err => rw [hf] at h; cases h
    | ok w =>
      rw [hf] at h
      exact ⟨z', rfl, w, hf, (Except.ok.inj h).symm⟩

theorem loadRot_length {fs : Files} {k : ℕ} {m : List (List ℝ)} (h : loadRot fs d k = .ok m) :
    m.length = d := by
  unfold loadRot at h
  split at h
  · cases h
  · split at h
    · rw [← Except.ok.inj h]; simp
    · cases h

theorem rotated_length {fs : Files} {k : ℕ} {c : ℝ} {x z : List ℝ}
    (h : rotated fs d k c x = .ok z) : z.length = d := by
  unfold rotated at h
  split at h
  · cases h
  split at h
  · cases h
  rename_i m hm
  unfold npDot at h
  split at h
  · rw [← Except.ok.inj h, List.length_map]; exact loadRot_length hm
  · cases h

theorem rotated_add_length {fs : Files} {k : ℕ} {c : ℝ} {x z : List ℝ}
    (h : (rotated fs d k c x).map (List.map (· + 1)) = .ok z) : z.length = d := by
  cases hr : rotated fs d k c x with
  | error err => rw [hr] at h; cases h
  | ok z' =>
    rw [hr] at h
    rw [← Except.ok.inj h, List.length_map]; exact rotated_length hr

/-- The contents of benchmarks/input_data, as far as shapes are concerned (checked by counting the
numbers in the files). -/
structure Shipped (fs : Files) : Prop where
  shift : ∀ k, 1 ≤ k → k ≤ 16 → (fs.shift k).length = 100
  missing : ∀ k n, 1 ≤ k → k ≤ 16 → (fs.rot k n = none ↔ n ∉ [2, 10, 20, 30, 50, 100])
  square : ∀ k n l, 1 ≤ k → k ≤ 16 → fs.rot k n = some l → l.length = n * n

theorem accepted {dim : ℤ} (h : Bench.new dim = .ok d) : d ∈ [1, 10, 20, 30, 50, 100] := by
  unfold Bench.new at h
  split at h
  · rename_i hm
    have := Except.ok.inj h
    simp only [List.mem_cons, List.not_mem_nil, or_false] at hm ⊢
    omega
  · cases h

theorem loadShift_length {fs : Files} (hs : Shipped fs) {dim : ℤ} (hd : Bench.new dim = .ok d)
    {k : ℕ} (h1 : 1 ≤ k) (h16 : k ≤ 16) : (loadShift fs d k).length = d := by
  unfold loadShift
  rw [List.length_take, hs.shift k h1 h16]
  have := accepted hd
  simp only [List.mem_cons, List.not_mem_nil, or_false] at this
  omega

theorem shifted_length {fs : Files} (hs : Shipped fs) {dim : ℤ} (hd : Bench.new dim = .ok d)
    {k : ℕ} (h1 : 1 ≤ k) (h16 : k ≤ 16) (hd1 : d ≠ 1) {c : ℝ} {x z : List ℝ}
    (h : shifted fs d k c x = .ok z) : z.length = d := by
  have hl := loadShift_length hs hd h1 h16
  unfold shifted at h
  cases hn : npSub x (loadShift fs d k) with
  | error err => rw [hn] at h; cases h
  | ok y =>
    rw [hn] at h
    rw [← Except.ok.inj h, List.length_map]
    unfold npSub at hn
    split at hn
    · rename_i he
      rw [← Except.ok.inj hn, List.length_zipWith]; omega
    · split at hn
      · rw [← Except.ok.inj hn, List.length_map, hl]
      · rename_i _ _ heq _
        rw [heq] at hl
        simp at hl; omega
      · cases hn

/-- **C42** (the part that holds) no value is below the bias `100 k`, for every accepted dimension,
every point and every rotation and shift data.  Missing: `cec14_10` in one dimension, which goes
below its bias (`C42_refuted_schwefel`). -/
theorem C42_never_below_bias_partial {dim : ℤ} (hd : Bench.new dim = .ok d) {fs : Files}
    (hs : Shipped fs) {k : ℕ} {x : List ℝ} {v : ℝ} (hk : k = 10 → d ≠ 1) (h : cec fs d x k = .ok v) :
    100 * (k : ℝ) ≤ v := by
  have hacc := accepted hd
  have hd1 : 1 ≤ d := by
    simp only [List.mem_cons, List.not_mem_nil, or_false] at hacc
    omega
  have hd6 : d ≠ 1 → 6 ≤ d := by
    simp only [List.mem_cons, List.not_mem_nil, or_false] at hacc
    omega
  -- a rotated function
  have rot : ∀ {j c z}, rotated fs d j c x = .ok z → ∃ y : Fin d → ℝ, z = List.ofFn y :=
    fun hr => list_ofFn' (rotated_length hr)
  have hrot1 : ∀ {j c z}, 1 ≤ j → j ≤ 16 → rotated fs d j c x = .ok z → d ≠ 1 := by
    intro j c z h1 h16 hr hd1
    unfold rotated at hr
    split at hr
    · cases hr
    unfold loadRot at hr
    have hm := (hs.missing j d h1 h16).2 (by rw [hd1]; decide)
    rw [hm] at hr
    cases hr
  unfold cec at h
  split at h
  · obtain ⟨z, hz, w, hw, rfl⟩ := evalAt_ok h
    obtain ⟨y, rfl⟩ := rot hz
    have := hd6 (hrot1 (by norm_num) (by norm_num) hz)
    rw [elliptic_val y (by omega)] at hw
    have := elliptic_nonneg y
    rw [Except.ok.inj hw] at this
    push_cast; linarith
  · obtain ⟨z, hz, w, hw, rfl⟩ := evalAt_ok h
    obtain ⟨y, rfl⟩ := rot hz
    rw [bentCigar_val y hd1] at hw
    have : 0 ≤ (10 ^ 6 + 1) * ∑ i, y i ^ 2 :=
      mul_nonneg (by norm_num) (sum_nonneg (fun i _ => sq_nonneg _))
    rw [Except.ok.inj hw] at this
    push_cast; linarith
  · obtain ⟨z, hz, w, hw, rfl⟩ := evalAt_ok h
    obtain ⟨y, rfl⟩ := rot hz
    rw [discus_val y hd1] at hw
    have := discus_nonneg y
    rw [Except.ok.inj hw] at this
    push_cast; linarith
  · obtain ⟨z, hz, w, hw, rfl⟩ := evalAt_ok h
    obtain ⟨y, rfl⟩ := list_ofFn' (rotated_add_length hz)
    rw [rosenbrock_val y] at hw
    have := rosenbrock_nonneg y
    rw [Except.ok.inj hw] at this
    push_cast; linarith
  · obtain ⟨z, hz, w, hw, rfl⟩ := evalAt_ok h
    obtain ⟨y, rfl⟩ := rot hz
    rw [ackley_val y] at hw
    have := ackley_nonneg y
    rw [Except.ok.inj hw] at this
    push_cast; linarith
  · obtain ⟨z, hz, w, hw, rfl⟩ := evalAt_ok h
    obtain ⟨y, rfl⟩ := rot hz
    rw [ackley_val y] at hw
    have := ackley_nonneg y
    rw [Except.ok.inj hw] at this
    push_cast; linarith
  · obtain ⟨z, hz, w, hw, rfl⟩ := evalAt_ok h
    obtain ⟨y, rfl⟩ := rot hz
    rw [griewank_val y] at hw
    have : 0 ≤ ∑ i, y i ^ 2 / 4000 := sum_nonneg (fun i _ => by positivity)
    rw [Except.ok.inj hw] at this
    push_cast; linarith
  · obtain ⟨z, hz, w, hw, rfl⟩ := evalAt_ok h
    obtain ⟨y, hy⟩ := list_ofFn z
    rw [hy, rastrigin_val y] at hw
    have := rastrigin_nonneg y
    rw [Except.ok.inj hw] at this
    push_cast; linarith
  · obtain ⟨z, hz, w, hw, rfl⟩ := evalAt_ok h
    obtain ⟨y, rfl⟩ := rot hz
    rw [rastrigin_val y] at hw
    have := rastrigin_nonneg y
    rw [Except.ok.inj hw] at this
    push_cast; linarith
  · obtain ⟨z, hz, w, hw, rfl⟩ := evalAt_ok h
    obtain ⟨y, rfl⟩ := list_ofFn' (shifted_length hs hd (by norm_num) (by norm_num) (hk rfl) hz)
    rw [modSchwefel_val y] at hw
    have := schwefel_pos (hd6 (hk rfl)) y
    rw [Except.ok.inj hw] at this
    push_cast; linarith
  · obtain ⟨z, hz, w, hw, rfl⟩ := evalAt_ok h
    obtain ⟨y, rfl⟩ := rot hz
    rw [modSchwefel_val y] at hw
    have := schwefel_pos (hd6 (hrot1 (by norm_num) (by norm_num) hz)) y
    rw [Except.ok.inj hw] at this
    push_cast; linarith
  · obtain ⟨z, hz, w, hw, rfl⟩ := evalAt_ok h
    obtain ⟨y, rfl⟩ := rot hz
    rw [katsuura_val y] at hw
    have h1 := prod_katsuura_ge y
    have h2 : 0 ≤ 10 / (d : ℝ) ^ 2 := by positivity
    have := mul_le_mul_of_nonneg_left h1 h2
    have hw := Except.ok.inj hw
    push_cast; linarith
  · obtain ⟨z, hz, w, hw, rfl⟩ := evalAt_ok h
    obtain ⟨y, rfl⟩ := rot hz
    rw [happycat_val y] at hw
    have := happycat_nonneg hd1 y
    rw [Except.ok.inj hw] at this
    push_cast; linarith
  · obtain ⟨z, hz, w, hw, rfl⟩ := evalAt_ok h
    obtain ⟨y, rfl⟩ := rot hz
    rw [hgbat_val y] at hw
    have := hgbat_nonneg hd1 y
    rw [Except.ok.inj hw] at this
    push_cast; linarith
  · obtain ⟨z, hz, w, hw, rfl⟩ := evalAt_ok h
    obtain ⟨y, rfl⟩ := list_ofFn' (rotated_add_length hz)
    rw [expandedScaffer_val y hd1] at hw
    have := expandedScaffer_nonneg y
    rw [Except.ok.inj hw] at this
    push_cast; linarith
  · cases h

/-- The zero vector. -/
abbrev zeros (d : ℕ) : List ℝ := List.ofFn (fun _ : Fin d => (0 : ℝ))

theorem shifted_at_shift {fs : Files} (hs : Shipped fs) {dim : ℤ} (hd : Bench.new dim = .ok d)
    {k : ℕ} (h1 : 1 ≤ k) (h16 : k ≤ 16) (c : ℝ) :
    shifted fs d k c (loadShift fs d k) = .ok (zeros d) := by
  have hl := loadShift_length hs hd h1 h16
  unfold shifted npSub
  rw [if_pos rfl]
  simp only [Except.map, Except.ok.injEq]
  apply List.ext_getElem?
  intro i
  rw [List.getElem?_ofFn, List.getElem?_map, List.getElem?_zipWith]
  by_cases hi : i < d
  · rw [dif_pos hi, List.getElem?_eq_getElem (by omega)]
    simp
  · rw [dif_neg hi, List.getElem?_eq_none (by omega)]
    simp

theorem sum_zip_zero (r : List ℝ) (n : ℕ) :
    (List.zipWith (· * ·) r (List.replicate n (0 : ℝ))).sum = 0 := by
  induction r generalizing n with
  | nil => simp
  | cons a r ih =>
    cases n with
    | zero => simp
    | succ n => simp [List.replicate_succ, ih n]

theorem rotated_at_shift {fs : Files} (hs : Shipped fs) {dim : ℤ} (hd : Bench.new dim = .ok d)
    (hd1 : d ≠ 1) {k : ℕ} (h1 : 1 ≤ k) (h16 : k ≤ 16) (c : ℝ) :
    rotated fs d k c (loadShift fs d k) = .ok (zeros d) := by
  unfold rotated
  rw [shifted_at_shift hs hd h1 h16]
  simp only
  have hacc := accepted hd
  have hne : fs.rot k d ≠ none := by
    intro h
    have := (hs.missing k d h1 h16).1 h
    simp only [List.mem_cons, List.not_mem_nil, or_false] at hacc this
    omega
  obtain ⟨l, hl⟩ := Option.ne_none_iff_exists'.1 hne
  have hr : loadRot fs d k = .ok ((List.range d).map (fun i => (l.drop (i * d)).take d)) := by
    unfold loadRot
    rw [hl]
    simp only
    rw [if_pos (hs.square k d l h1 h16 hl)]
  rw [hr]
  unfold npDot
  simp only [List.length_map, List.length_range, List.length_ofFn, if_true, Except.ok.injEq]
  have hz : zeros d = List.replicate d 0 := by rw [← List.ofFn_const]
  rw [hz]
  apply List.ext_getElem?
  intro i
  simp only [List.getElem?_map, sum_zip_zero, List.getElem?_replicate]
  by_cases hi : i < d
  · rw [List.getElem?_range hi]; simp [hi]
  · rw [List.getElem?_eq_none (by simpa using hi)]; simp [hi]

/-- **C42** (the part that holds) the bias is attained at the shift vector by `cec14_k` for
`k = 1, 2, 3, 4, 6, 7, 8, 9, 12`, in every accepted dimension but 1.  Missing: 5, 10, 11, 13, 14, which
return other values there. -/
theorem C42_attained_at_shift_partial {dim : ℤ} (hd : Bench.new dim = .ok d) {fs : Files}
    (hs : Shipped fs) (hd1 : d ≠ 1) {k : ℕ} (hk : k ∈ [1, 2, 3, 4, 6, 7, 8, 9, 12]) :
    cec fs d (loadShift fs d k) k = .ok (100 * (k : ℝ)) := by
  have hacc := accepted hd
  have hd2 : 2 ≤ d := by
    simp only [List.mem_cons, List.not_mem_nil, or_false] at hacc
    omega
  have hd0 : (d : ℝ) ≠ 0 := by
    have : (2 : ℝ) ≤ d := by exact_mod_cast hd2
    linarith
  have hrot := fun j h1 h16 c => rotated_at_shift hs hd hd1 (k := j) h1 h16 c
  simp only [List.mem_cons, List.not_mem_nil, or_false] at hk
  rcases hk with rfl | rfl | rfl | rfl | rfl | rfl | rfl | rfl | rfl
  · show cec1 _ _ _ = _
    unfold cec1
    rw [hrot 1 (by norm_num) (by norm_num) 1, evalAt, elliptic_val _ hd2]
    simp [Except.map, Spec.elliptic]
  · show cec2 _ _ _ = _
    unfold cec2
    rw [hrot 2 (by norm_num) (by norm_num) 1, evalAt, bentCigar_val _ (by omega)]
    norm_num [Except.map]
  · show cec3 _ _ _ = _
    unfold cec3
    rw [hrot 3 (by norm_num) (by norm_num) 1, evalAt, discus_val _ (by omega)]
    norm_num [Except.map, Spec.discus]
  · show cec4 _ _ _ = _
    unfold cec4
    rw [hrot 4 (by norm_num) (by norm_num) _]
    have : (zeros d).map (· + 1) = List.ofFn (fun _ : Fin d => (1 : ℝ)) := by
      rw [List.map_ofFn]; congr 1; funext i; simp
    simp only [Except.map, evalAt]
    rw [this, rosenbrock_val]
    norm_num [Spec.rosenbrock]
  · show cec6 _ _ _ = _
    unfold cec6
    rw [hrot 6 (by norm_num) (by norm_num) _, evalAt, ackley_val]
    have : Spec.ackley (fun _ : Fin d => (0 : ℝ)) = 0 := by
      unfold Spec.ackley
      simp [hd0]
      ring
    rw [this]
    norm_num [Except.map]
  · show cec7 _ _ _ = _
    unfold cec7
    rw [hrot 7 (by norm_num) (by norm_num) _, evalAt, griewank_val]
    norm_num [Except.map]
  · show cec8 _ _ _ = _
    unfold cec8
    rw [shifted_at_shift hs hd (by norm_num) (by norm_num), evalAt, rastrigin_val]
    norm_num [Except.map, Spec.rastrigin]
  · show cec9 _ _ _ = _
    unfold cec9
    rw [hrot 9 (by norm_num) (by norm_num) _, evalAt, rastrigin_val]
    norm_num [Except.map, Spec.rastrigin]
  · show cec12 _ _ _ = _
    unfold cec12
    rw [hrot 12 (by norm_num) (by norm_num) _, evalAt, katsuura_val]
    norm_num [Except.map, nearest_zero]

/-- **C42** is false for `cec14_5`: its value at the shift vector is 800, and no value is smaller. -/
theorem C42_refuted_ackley {dim : ℤ} (hd : Bench.new dim = .ok d) {fs : Files} (hs : Shipped fs)
    (hd1 : d ≠ 1) : cec fs d (loadShift fs d 5) 5 = .ok 800 ∧
      ∀ x v, cec fs d x 5 = .ok v → 800 ≤ v := by
  have hd0 : (d : ℝ) ≠ 0 := by
    have := accepted hd
    simp only [List.mem_cons, List.not_mem_nil, or_false] at this
    have : 1 ≤ d := by omega
    have : (1 : ℝ) ≤ d := by exact_mod_cast this
    linarith
  constructor
  · show cec5 _ _ _ = _
    unfold cec5
    rw [rotated_at_shift hs hd hd1 (by norm_num) (by norm_num), evalAt, ackley_val]
    have : Spec.ackley (fun _ : Fin d => (0 : ℝ)) = 0 := by
      unfold Spec.ackley
      simp [hd0]
      ring
    rw [this]
    norm_num [Except.map]
  · intro x v h
    obtain ⟨z, hz, w, hw, rfl⟩ := evalAt_ok h
    obtain ⟨y, rfl⟩ := list_ofFn' (rotated_length hz)
    rw [ackley_val y] at hw
    have := ackley_nonneg y
    rw [Except.ok.inj hw] at this
    linarith

/-- **C42** is false for `cec14_13` and `cec14_14`: at the shift vector they exceed their bias by
`d^(1/4) + 1/2` and `1/2`. -/
theorem C42_refuted_cat_bat {dim : ℤ} (hd : Bench.new dim = .ok d) {fs : Files} (hs : Shipped fs)
    (hd1 : d ≠ 1) : cec fs d (loadShift fs d 13) 13 = .ok (1300 + ((d : ℝ) ^ (1 / 4 : ℝ) + 1 / 2)) ∧
      cec fs d (loadShift fs d 14) 14 = .ok (1400 + 1 / 2) := by
  constructor
  · show cec13 _ _ _ = _
    unfold cec13
    rw [rotated_at_shift hs hd hd1 (by norm_num) (by norm_num), evalAt, happycat_val]
    unfold Spec.happycat
    simp only [Except.map, ne_eq, OfNat.ofNat_ne_zero, not_false_eq_true, zero_pow, sum_const_zero,
      mul_zero, add_zero, zero_div, zero_sub, abs_neg, Nat.abs_cast, Except.ok.injEq]
    norm_num
    ring
  · show cec14 _ _ _ = _
    unfold cec14
    rw [rotated_at_shift hs hd hd1 (by norm_num) (by norm_num), evalAt, hgbat_val]
    unfold Spec.hgbat
    simp only [Except.map, ne_eq, OfNat.ofNat_ne_zero, not_false_eq_true, zero_pow, sum_const_zero,
      mul_zero, add_zero, zero_div, sub_self, abs_zero, Except.ok.injEq]
    rw [zero_rpow (by norm_num)]
    norm_num

/-- **C42** `cec14_10` and `cec14_11` do not quite attain their bias at the shift vector: the value
there exceeds it, by at most `0.003 d`. -/
theorem C42_schwefel_at_shift {dim : ℤ} (hd : Bench.new dim = .ok d) {fs : Files} (hs : Shipped fs)
    (hd1 : d ≠ 1) {k : ℕ} (hk : k = 10 ∨ k = 11) :
    ∃ v, cec fs d (loadShift fs d k) k = .ok v ∧ 100 * (k : ℝ) < v ∧
      v ≤ 100 * (k : ℝ) + 0.003 * d := by
  have hacc := accepted hd
  have hd6 : 6 ≤ d := by
    simp only [List.mem_cons, List.not_mem_nil, or_false] at hacc
    omega
  have hpos := schwefel_pos hd6 (fun _ => 0)
  have hup : 418.9829 * (d : ℝ) - ∑ i : Fin d, modSchF (0 + 420.9687462275036) d ≤ 0.003 * d := by
    have : modSchF (0 + 420.9687462275036) d = 420.9687462275036 * sin (√ 420.9687462275036) := by
      unfold modSchF
      rw [zero_add, rpow_half, abs_of_nonneg (by norm_num), if_pos (by norm_num)]
    rw [this, sum_const, card_univ, Fintype.card_fin, nsmul_eq_mul]
    have h2 := mul_sin_sqrt_at
    have : (0 : ℝ) ≤ d := Nat.cast_nonneg _
    nlinarith
  rcases hk with rfl | rfl
  · refine ⟨418.9829 * (d : ℝ) - ∑ i : Fin d, modSchF (0 + 420.9687462275036) d + 1000, ?_, ?_, ?_⟩
    · show cec10 _ _ _ = _
      unfold cec10
      rw [shifted_at_shift hs hd (by norm_num) (by norm_num), evalAt, modSchwefel_val]
      rfl
    · push_cast; linarith
    · push_cast; linarith
  · refine ⟨418.9829 * (d : ℝ) - ∑ i : Fin d, modSchF (0 + 420.9687462275036) d + 1100, ?_, ?_, ?_⟩
    · show cec11 _ _ _ = _
      unfold cec11
      rw [rotated_at_shift hs hd hd1 (by norm_num) (by norm_num), evalAt, modSchwefel_val]
      rfl
    · push_cast; linarith
    · push_cast; linarith

/-- The point where the modified Schwefel term of one variable is too large: its `z` is
`(3π/2)² - 1000`. -/
noncomputable def badZ : ℝ := (3 * π / 2) ^ 2 - 1000

theorem badZ_bounds : 22 < (3 * π / 2) ^ 2 ∧ (3 * π / 2) ^ 2 < 22.3 := by
  have h1 := pi_gt_d20
  have h2 := pi_lt_d20
  constructor <;> nlinarith

theorem modSchF_bad : 440 < modSchF badZ 1 := by
  obtain ⟨b1, b2⟩ := badZ_bounds
  have hm : pyMod badZ 500 = (3 * π / 2) ^ 2 := by
    unfold pyMod
    have : ⌊badZ / 500⌋ = -2 := by
      rw [Int.floor_eq_iff]
      unfold badZ
      constructor
      · push_cast; rw [le_div_iff₀ (by norm_num)]; linarith
      · push_cast; rw [div_lt_iff₀ (by norm_num)]; linarith
    rw [this]; unfold badZ; push_cast; ring
  have hneg : badZ < -500 := by unfold badZ; linarith
  have hm2 : pyMod |badZ| 500 = 500 - (3 * π / 2) ^ 2 := by
    rw [abs_of_neg (by linarith)]
    unfold pyMod
    have : ⌊-badZ / 500⌋ = 1 := by
      rw [Int.floor_eq_iff]
      unfold badZ
      constructor
      · push_cast; rw [le_div_iff₀ (by norm_num)]; linarith
      · push_cast; rw [div_lt_iff₀ (by norm_num)]; linarith
    rw [this]; unfold badZ; push_cast; ring
  unfold modSchF
  rw [if_neg (by rw [abs_of_neg (by linarith)]; linarith), if_neg (by linarith), hm, hm2]
  have hs : sin (√ |500 - (3 * π / 2) ^ 2 - 500|) = -1 := by
    rw [show 500 - (3 * π / 2) ^ 2 - 500 = -(3 * π / 2) ^ 2 by ring, abs_neg, abs_of_nonneg (sq_nonneg _),
      sqrt_sq (by positivity), show 3 * π / 2 = π / 2 + π by ring, sin_add_pi, sin_pi_div_two]
  rw [hs]
  have : (badZ + 500) ^ 2 < 250000 := by
    unfold badZ
    nlinarith
  push_cast
  linarith

/-- **C42** is false for `cec14_10` in dimension 1, whatever the shift: some point costs less than the
bias 1000. -/
theorem C42_refuted_schwefel {fs : Files} (hs : Shipped fs) :
    ∃ x v, cec fs 1 [x] 10 = .ok v ∧ v < 1000 := by
  have hl := loadShift_length hs (dim := 1) (d := 1) (by decide) (k := 10) (by norm_num) (by norm_num)
  obtain ⟨o, ho⟩ := List.length_eq_one_iff.1 hl
  refine ⟨o + (badZ - 420.9687462275036) / 10, 418.9829 - modSchF badZ 1 + 1000, ?_, ?_⟩
  · show cec10 _ _ _ = _
    unfold cec10 shifted npSub
    rw [ho, if_pos (by rfl)]
    have e : [10 * (o + (badZ - 420.9687462275036) / 10 - o)] =
        List.ofFn (fun _ : Fin 1 => badZ - 420.9687462275036) := by
      rw [List.ofFn_const]
      simp only [List.replicate_one, List.cons.injEq, and_true]
      ring
    simp only [Except.map, List.zipWith_cons_cons, List.zipWith_nil_right, List.map_cons, List.map_nil]
    rw [e, evalAt, modSchwefel_val]
    simp [Except.map]
  · have := modSchF_bad
    linarith

/-- **C42** in dimension 1, which the constructor accepts, every rotated function fails because no
rotation matrix is shipped. -/
theorem C42_dimension_one {fs : Files} (hs : Shipped fs) {k : ℕ}
    (hk : k ∈ [1, 2, 3, 4, 5, 6, 7, 9, 11, 12, 13, 14, 16]) (v : ℝ) :
    Bench.new 1 = .ok 1 ∧ cec fs 1 [v] k = .error .fileNotFound := by
  refine ⟨by decide, ?_⟩
  have key : ∀ j c, 1 ≤ j → j ≤ 16 → rotated fs 1 j c [v] = .error .fileNotFound := by
    intro j c h1 h16
    have hl := loadShift_length hs (dim := 1) (d := 1) (by decide) h1 h16
    unfold rotated shifted npSub
    rw [if_pos (by simp [hl])]
    simp only [Except.map]
    have hm := (hs.missing j 1 h1 h16).2 (by decide)
    unfold loadRot
    rw [hm]
  simp only [List.mem_cons, List.not_mem_nil, or_false] at hk
  rcases hk with rfl | rfl | rfl | rfl | rfl | rfl | rfl | rfl | rfl | rfl | rfl | rfl | rfl <;>
    simp only [cec, cec1, cec2, cec3, cec4, cec5, cec6, cec7, cec9, cec11, cec12, cec13, cec14, cec16]
      <;> rw [key _ _ (by norm_num) (by norm_num)] <;> rfl

/-- Files with the shipped shapes exist. -/
example : ∃ fs : Files, Shipped fs := by
  refine ⟨{ shift := fun _ => List.replicate 100 1
            rot := fun _ n => if n ∈ [2, 10, 20, 30, 50, 100] then some (List.replicate (n * n) 2)
              else none }, ?_, ?_, ?_⟩
  · intro k _ _; simp
  · intro k n _ _
    simp only
    split
    · rename_i h; simp [h]
    · rename_i h; simp [h]
  · intro k n l _ _ h
    simp only at h
    split at h
    · rw [← Option.some.inj h]; simp
    · cases h

end optimum

end Verif
