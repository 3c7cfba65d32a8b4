/- Facts about `UniKDE` and `UnivariateKEDA`. -/
import Verif.Lemmas.Moments
import Verif.Lemmas.MultiGauss
import Verif.Lemmas.Archive
import Verif.Spec.Kde
import Mathlib.LinearAlgebra.Dimension.StrongRankCondition
import Mathlib.LinearAlgebra.FiniteDimensional.Lemmas
import Mathlib.Analysis.Matrix.Spectrum
import Mathlib.Analysis.Matrix.PosDef

set_option linter.unusedSectionVars false

namespace Verif

open Spec

section guard
variable {R C σ Ω : Type} [PyCost C] {env : Env C} {e : Eda R σ Ω} {f : ℕ → R → C} {ftol : C}
variable {pm : σ} {ρ : Rand Ω}

/-- If an update behaves like `up` or raises an error in `Bad`, so does the whole run. -/
theorem minimize_guard {up : σ → Gen R → Gen R → Ω → Except PyErr σ} {Bad : PyErr → Prop}
    (hu : ∀ a g el ω, e.updatePm a g el ω = up a g el ω ∨
      ∃ err, Bad err ∧ e.updatePm a g el ω = .error err) :
    minimize env e f ftol pm ρ = minimize env { e with updatePm := up } f ftol pm ρ ∨
      ∃ err, Bad err ∧ minimize env e f ftol pm ρ = .error err := by
  have hstep : ∀ nz t (s : St R C σ), step env e f ftol ρ nz t s =
      step env { e with updatePm := up } f ftol ρ nz t s ∨
      ∃ err, Bad err ∧ step env e f ftol ρ nz t s = .error err := by
    intro nz t s
    have htr : truncation env { e with updatePm := up } s = truncation env e s := rfl
    unfold step
    rw [htr]
    cases ht : truncation env e s with
    | error err => exact .inl rfl
    | ok s1 =>
      dsimp only
      cases hg : nz s1.gen with
      | error err => exact .inl rfl
      | ok noisy =>
        dsimp only
        rcases hu s1.pm noisy s1.elite (ρ.learn t) with h | ⟨err, hb, h⟩
        · rw [h]; exact .inl rfl
        · rw [h]; exact .inr ⟨err, hb, rfl⟩
  have hloop : ∀ nz n t (s : St R C σ), loop env e f ftol ρ nz n t s =
      loop env { e with updatePm := up } f ftol ρ nz n t s ∨
      ∃ err, Bad err ∧ loop env e f ftol ρ nz n t s = .error err := by
    intro nz n
    induction n with
    | zero => intro t s; exact .inl rfl
    | succ n ih =>
      intro t s
      unfold loop
      rcases hstep nz t s with h | ⟨err, hb, h⟩
      · rw [h]
        cases step env { e with updatePm := up } f ftol ρ nz t s with
        | error err => exact .inl rfl
        | ok y =>
          obtain ⟨s', b⟩ := y
          cases b with
          | true => exact .inl rfl
          | false => exact ih _ _
      · rw [h]; exact .inr ⟨err, hb, rfl⟩
  have hst : start env { e with updatePm := up } f pm ρ = start env e f pm ρ := rfl
  unfold minimize
  rw [hst]
  cases start env e f pm ρ with
  | error err => exact .inl rfl
  | ok s0 =>
    dsimp only
    cases hm : e.mkNoise ρ.noise with
    | error err => exact .inl rfl
    | ok nz =>
      dsimp only
      rcases hloop nz (e.maxIter - 1).toNat 1 s0 with h | ⟨err, hb, h⟩
      · rw [h]; exact .inl rfl
      · rw [h]; exact .inr ⟨err, hb, rfl⟩

end guard

section K
variable {K : Type} [Field K] [LinearOrder K] [IsStrictOrderedRing K]

/-- The quadratic form of the covariance matrix is a sum of squares. -/
theorem cov_form (rows : List (List K)) (n : ℕ) (x : ℕ → K) :
    ∑ i ∈ Finset.range n, ∑ j ∈ Finset.range n, x i * covEntry rows i j * x j =
      (rows.map (fun r => (∑ i ∈ Finset.range n, (r.getD i 0 - colMean rows i) * x i) ^ 2)).sum /
        ((rows.length : K) - 1) := by
  have h : ∀ i j, covEntry rows i j = (rows.map (fun r =>
      (r.getD i 0 - colMean rows i) * (r.getD j 0 - colMean rows j))).sum / ((rows.length : K) - 1) := by
    intro i j
    unfold covEntry
    rw [foldl_add_map, zero_add]
  simp only [h]
  have hd : ∀ (l : List (List K)), ∑ i ∈ Finset.range n, ∑ j ∈ Finset.range n,
      x i * ((l.map (fun r => (r.getD i 0 - colMean rows i) * (r.getD j 0 - colMean rows j))).sum /
        ((rows.length : K) - 1)) * x j =
      (l.map (fun r => (∑ i ∈ Finset.range n, (r.getD i 0 - colMean rows i) * x i) ^ 2)).sum /
        ((rows.length : K) - 1) := by
    intro l
    induction l with
    | nil => simp
    | cons r l ih =>
      simp only [List.map_cons, List.sum_cons, add_div, mul_add, add_mul, Finset.sum_add_distrib]
      rw [ih, sq, Finset.sum_mul_sum, Finset.sum_div]
      congr 1
      apply Finset.sum_congr rfl; intro i _
      rw [Finset.sum_div]
      apply Finset.sum_congr rfl; intro j _
      ring
  exact hd rows

theorem cov_psd {rows : List (List K)} (h : 1 ≤ rows.length) (n : ℕ) : PSD n (covEntry rows) := by
  intro x
  rw [cov_form]
  apply div_nonneg
  · apply List.sum_nonneg
    intro y hy
    obtain ⟨r, _, rfl⟩ := List.mem_map.1 hy
    exact sq_nonneg _
  · have : (1 : K) ≤ rows.length := by exact_mod_cast h
    linarith

/-- Centred columns add up to zero. -/
theorem centred_sum (rows : List (List K)) (h : rows ≠ []) (i : ℕ) :
    (rows.map (fun r => r.getD i 0 - colMean rows i)).sum = 0 := by
  have hl : (rows.length : K) ≠ 0 := by
    have : rows.length ≠ 0 := by simpa using h
    exact_mod_cast this
  have hs : ∀ (c : K) (l : List (List K)), (l.map (fun r => r.getD i 0 - c)).sum =
      (l.map (fun r => r.getD i 0)).sum - l.length * c := by
    intro c l
    induction l with
    | nil => simp
    | cons r l ih => simp only [List.map_cons, List.sum_cons, ih, List.length_cons]; push_cast; ring
  rw [hs, colMean_eq, mean]
  simp only [col, List.length_map]
  rw [mul_div_cancel₀ _ hl, sub_self]

/-- The covariance matrix of at most `n` points in `n` dimensions is not positive definite. -/
theorem cov_not_pd {rows : List (List K)} {n : ℕ} (h : rows.length ≤ n) (hn : 1 ≤ n) :
    ¬ PD n (covEntry rows) := by
  intro hpd
  cases hrows : rows with
  | nil =>
    have := hpd (fun _ => 1) ⟨0, hn, one_ne_zero⟩
    rw [cov_form, hrows] at this
    simp at this
  | cons r0 rest =>
    have hne : rows ≠ [] := by rw [hrows]; simp
    let φ : (Fin n → K) →ₗ[K] (Fin (rows.length - 1) → K) :=
      { toFun := fun x k => ∑ i : Fin n, ((rest.getD k []).getD i 0 - colMean rows i) * x i
        map_add' := by
          intro x y; funext k; simp only [Pi.add_apply, mul_add, Finset.sum_add_distrib]
        map_smul' := by
          intro c x; funext k
          simp only [Pi.smul_apply, smul_eq_mul, RingHom.id_apply, Finset.mul_sum]
          apply Finset.sum_congr rfl; intro i _; ring }
    have hker : LinearMap.ker φ ≠ ⊥ := by
      apply LinearMap.ker_ne_bot_of_finrank_lt
      simp only [Module.finrank_fin_fun]
      omega
    obtain ⟨x, hx, hx0⟩ := (Submodule.ne_bot_iff _).1 hker
    obtain ⟨i0, hi0⟩ := Function.ne_iff.1 hx0
    let y : ℕ → K := fun i => if hi : i < n then x ⟨i, hi⟩ else 0
    have hy : ∀ i : Fin n, y i = x i := by intro i; simp [y]
    have hzero : ∀ r ∈ rest, ∑ i ∈ Finset.range n, (r.getD i 0 - colMean rows i) * y i = 0 := by
      intro r hr
      obtain ⟨k, hk, rfl⟩ := List.getElem_of_mem hr
      have := congrFun (LinearMap.mem_ker.1 hx) ⟨k, by rw [hrows]; simpa using hk⟩
      simp only [φ, LinearMap.coe_mk, AddHom.coe_mk, Pi.zero_apply,
        List.getD_eq_getElem?_getD (l := rest), List.getElem?_eq_getElem hk, Option.getD_some] at this
      rw [Finset.sum_range]
      simp only [hy]
      exact this
    have hsum : (rows.map (fun r => ∑ i ∈ Finset.range n, (r.getD i 0 - colMean rows i) * y i)).sum
        = 0 := by
      have : ∀ l : List (List K),
          (l.map (fun r => ∑ i ∈ Finset.range n, (r.getD i 0 - colMean rows i) * y i)).sum =
          ∑ i ∈ Finset.range n, (l.map (fun r => r.getD i 0 - colMean rows i)).sum * y i := by
        intro l
        induction l with
        | nil => simp
        | cons r l ih => simp only [List.map_cons, List.sum_cons, add_mul, Finset.sum_add_distrib, ih]
      rw [this]
      apply Finset.sum_eq_zero
      intro i _
      rw [centred_sum rows hne, zero_mul]
    have hall : ∀ r ∈ rows, ∑ i ∈ Finset.range n, (r.getD i 0 - colMean rows i) * y i = 0 := by
      have hz : (rest.map (fun r => ∑ i ∈ Finset.range n, (r.getD i 0 - colMean rows i) * y i)).sum
          = 0 := by
        apply List.sum_eq_zero
        intro z hz
        obtain ⟨r, hr, rfl⟩ := List.mem_map.1 hz
        exact hzero r hr
      intro r hr
      rw [hrows] at hr
      rcases List.mem_cons.1 hr with rfl | hr
      · have h1 := hsum
        conv at h1 => lhs; arg 1; arg 2; rw [hrows]
        rw [List.map_cons, List.sum_cons, hz, add_zero] at h1
        exact h1
      · exact hzero r hr
    have := hpd y ⟨i0, i0.2, by rw [hy]; exact hi0⟩
    rw [cov_form] at this
    have h0 : (rows.map (fun r =>
        (∑ i ∈ Finset.range n, (r.getD i 0 - colMean rows i) * y i) ^ 2)).sum = 0 := by
      apply List.sum_eq_zero
      intro z hz
      obtain ⟨r, hr, rfl⟩ := List.mem_map.1 hz
      rw [hall r hr]; ring
    rw [h0, zero_div] at this
    exact lt_irrefl _ this

end K

section moments
variable {n : ℕ} {dom : ((ℕ → ℝ) → ℝ) → Prop} {E : ((ℕ → ℝ) → ℝ) → ℝ}

theorem dom_affine (hE : Expectation n dom E) (m : ℝ) (a : ℕ → ℝ) : dom (affine n m a) := by
  have h0 : ∀ k ∈ Finset.range n, dom (fun z => z k * a k) := by
    intro k hk
    have h1 := hE.domSmul (a k) _ (hE.domDraw k (Finset.mem_range.1 hk))
    have : (fun z : ℕ → ℝ => a k * z k) = fun z => z k * a k := by funext z; ring
    rwa [this] at h1
  exact hE.domAdd _ _ (exp_const hE m).1
    (exp_sum hE (Finset.range n) (fun k z => z k * a k) h0).1

theorem dom_mul (hE : Expectation n dom E) (a b : ℕ → ℝ) :
    dom (fun z => affine n 0 a z * affine n 0 b z) := by
  have h1 : (fun z : ℕ → ℝ => affine n 0 a z * affine n 0 b z) =
      fun z => ∑ k ∈ Finset.range n, ∑ l ∈ Finset.range n, (a k * b l) * (z k * z l) := by
    funext z
    unfold affine
    rw [zero_add, zero_add, Finset.sum_mul_sum]
    apply Finset.sum_congr rfl; intro k _
    apply Finset.sum_congr rfl; intro l _
    ring
  rw [h1]
  refine (exp_sum hE (Finset.range n) _ (fun k hk => ?_)).1
  refine (exp_sum hE (Finset.range n) (fun l z => (a k * b l) * (z k * z l)) (fun l hl => ?_)).1
  exact hE.domSmul _ _ (hE.domMul k (Finset.mem_range.1 hk) l (Finset.mem_range.1 hl))

/-- The mean of a product of two affine functions of the draws. -/
theorem exp_mul_affine (hE : Expectation n dom E) (p q : ℝ) (a b : ℕ → ℝ) :
    E (fun z => affine n p a z * affine n q b z) = p * q + ∑ k ∈ Finset.range n, a k * b k := by
  have hsplit : (fun z : ℕ → ℝ => affine n p a z * affine n q b z) =
      fun z => affine n (p * q) (fun k => p * b k + q * a k) z +
        affine n 0 a z * affine n 0 b z := by
    funext z
    unfold affine
    have : ∑ k ∈ Finset.range n, z k * (p * b k + q * a k) =
        p * ∑ k ∈ Finset.range n, z k * b k + q * ∑ k ∈ Finset.range n, z k * a k := by
      rw [Finset.mul_sum, Finset.mul_sum, ← Finset.sum_add_distrib]
      apply Finset.sum_congr rfl; intro k _; ring
    rw [this]; ring
  rw [hsplit, hE.add _ _ (dom_affine hE _ _) (dom_mul hE a b), exp_affine hE]
  congr 1
  have := cov_affine hE 0 0 a b
  unfold Cov at this
  rw [exp_affine hE, exp_affine hE] at this
  simpa using this

end moments

/-- Every symmetric positive semidefinite matrix has a singular value decomposition. -/
theorem svdRoot_exists {n : ℕ} {c : ℕ → ℕ → ℝ} (hs : ∀ i < n, ∀ j < n, c i j = c j i)
    (hp : PSD n c) : ∃ a, IsSvdRoot n c a := by
  have hpos := (psd_iff_posSemidef hs).1 hp
  have hH := hpos.isHermitian
  let U : Matrix (Fin n) (Fin n) ℝ := (hH.eigenvectorUnitary : Matrix (Fin n) (Fin n) ℝ)
  have hU1 : U.transpose * U = 1 := by
    have := Matrix.UnitaryGroup.star_mul_self hH.eigenvectorUnitary
    rwa [Matrix.star_eq_conjTranspose, Matrix.conjTranspose_eq_transpose_of_trivial] at this
  have hU2 : U * U.transpose = 1 := by
    exact mul_eq_one_comm.1 hU1
  have hspec : toMat n c = U * Matrix.diagonal hH.eigenvalues * U.transpose := by
    have := hH.spectral_theorem
    rw [Unitary.conjStarAlgAut_apply] at this
    exact this
  let A : Matrix (Fin n) (Fin n) ℝ :=
    Matrix.diagonal (fun i => Real.sqrt (hH.eigenvalues i)) * U.transpose
  refine ⟨fun i j => if hi : i < n then if hj : j < n then A ⟨i, hi⟩ ⟨j, hj⟩ else 0 else 0,
    U, U.transpose, hH.eigenvalues, hU1, ?_, ?_, hpos.eigenvalues_nonneg, hspec, ?_⟩
  · rw [Matrix.transpose_transpose]; exact hU1
  · rw [Matrix.transpose_transpose]; exact hU2
  · ext i j
    simp [toMat, A]

end Verif
