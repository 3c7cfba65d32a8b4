/- Moments of affine functions of random draws, and singular value decompositions. -/
import Verif.Spec.Moments
import Mathlib.Analysis.Matrix.Order
import Mathlib.Analysis.SpecialFunctions.ContinuousFunctionalCalculus.Rpow.Basic

namespace Verif

open Spec

variable {n : ℕ} {dom : ((ℕ → ℝ) → ℝ) → Prop} {E : ((ℕ → ℝ) → ℝ) → ℝ}

theorem exp_const (hE : Expectation n dom E) (c : ℝ) : dom (fun _ => c) ∧ E (fun _ => c) = c := by
  have h1 := hE.domSmul c _ hE.domOne
  have h2 := hE.smul c _ hE.domOne
  simp only [mul_one] at h1 h2
  exact ⟨h1, by rw [h2, hE.one, mul_one]⟩

theorem exp_sum (hE : Expectation n dom E) (s : Finset ℕ) (f : ℕ → (ℕ → ℝ) → ℝ)
    (hf : ∀ k ∈ s, dom (f k)) :
    dom (fun z => ∑ k ∈ s, f k z) ∧ E (fun z => ∑ k ∈ s, f k z) = ∑ k ∈ s, E (f k) := by
  classical
  induction s using Finset.induction_on with
  | empty => simpa using exp_const hE 0
  | insert a s ha ih =>
    simp only [Finset.sum_insert ha]
    obtain ⟨i1, i2⟩ := ih (fun k hk => hf k (Finset.mem_insert_of_mem hk))
    have h0 := hf a (Finset.mem_insert_self a s)
    exact ⟨hE.domAdd _ _ h0 i1, by rw [hE.add _ _ h0 i1, i2]⟩

/-- An affine function of the draws. -/
def affine (n : ℕ) (m : ℝ) (a : ℕ → ℝ) (z : ℕ → ℝ) : ℝ := m + ∑ k ∈ Finset.range n, z k * a k

theorem exp_affine (hE : Expectation n dom E) (m : ℝ) (a : ℕ → ℝ) : E (affine n m a) = m := by
  have h0 : ∀ k ∈ Finset.range n, dom (fun z => z k * a k) ∧ E (fun z => z k * a k) = 0 := by
    intro k hk
    have hk := Finset.mem_range.1 hk
    have h1 := hE.domSmul (a k) _ (hE.domDraw k hk)
    have h2 := hE.smul (a k) _ (hE.domDraw k hk)
    rw [hE.mean k hk, mul_zero] at h2
    have : (fun z : ℕ → ℝ => a k * z k) = fun z => z k * a k := by funext z; ring
    rw [this] at h1 h2
    exact ⟨h1, h2⟩
  unfold affine
  obtain ⟨s1, s2⟩ := exp_sum hE (Finset.range n) (fun k z => z k * a k) (fun k hk => (h0 k hk).1)
  rw [hE.add _ _ (exp_const hE m).1 s1, (exp_const hE m).2, s2,
    Finset.sum_congr rfl (fun k hk => (h0 k hk).2)]
  simp

theorem cov_affine (hE : Expectation n dom E) (m m' : ℝ) (a b : ℕ → ℝ) :
    Cov E (affine n m a) (affine n m' b) = ∑ k ∈ Finset.range n, a k * b k := by
  unfold Cov
  rw [exp_affine hE, exp_affine hE]
  have h1 : (fun z : ℕ → ℝ => (affine n m a z - m) * (affine n m' b z - m')) =
      fun z => ∑ k ∈ Finset.range n, ∑ l ∈ Finset.range n, (a k * b l) * (z k * z l) := by
    funext z
    unfold affine
    rw [add_sub_cancel_left, add_sub_cancel_left, Finset.sum_mul_sum]
    apply Finset.sum_congr rfl; intro k _
    apply Finset.sum_congr rfl; intro l _
    ring
  have h2 : ∀ k ∈ Finset.range n, ∀ l ∈ Finset.range n,
      dom (fun z => (a k * b l) * (z k * z l)) := by
    intro k hk l hl
    exact hE.domSmul _ _ (hE.domMul k (Finset.mem_range.1 hk) l (Finset.mem_range.1 hl))
  have h3 := fun k hk => exp_sum hE (Finset.range n) (fun l z => (a k * b l) * (z k * z l)) (h2 k hk)
  rw [h1, (exp_sum hE (Finset.range n) _ (fun k hk => (h3 k hk).1)).2]
  apply Finset.sum_congr rfl
  intro k hk
  rw [(h3 k hk).2]
  have hk' := Finset.mem_range.1 hk
  rw [Finset.sum_eq_single k]
  · rw [hE.smul _ _ (hE.domMul k hk' k hk'), hE.var k hk', mul_one]
  · intro l hl hlk
    have hl' := Finset.mem_range.1 hl
    rw [hE.smul _ _ (hE.domMul k hk' l hl'), hE.uncorrelated k hk' l hl' (Ne.symm hlk), mul_zero]
  · intro h; exact absurd hk h

theorem psd_iff_posSemidef {n : ℕ} {c : ℕ → ℕ → ℝ} (hs : ∀ i < n, ∀ j < n, c i j = c j i) :
    PSD n c ↔ (toMat n c).PosSemidef := by
  rw [Matrix.posSemidef_iff_dotProduct_mulVec]
  have key : ∀ x : Fin n → ℝ, ∀ y : ℕ → ℝ, (∀ i : Fin n, y i = x i) →
      star x ⬝ᵥ Matrix.mulVec (toMat n c) x =
        ∑ i ∈ Finset.range n, ∑ j ∈ Finset.range n, y i * c i j * y j := by
    intro x y hxy
    simp only [dotProduct, Matrix.mulVec, Pi.star_apply, star_trivial, toMat]
    rw [Finset.sum_range]
    apply Finset.sum_congr rfl; intro i _
    rw [Finset.sum_range, Finset.mul_sum]
    apply Finset.sum_congr rfl; intro j _
    rw [hxy, hxy]; ring
  constructor
  · intro h
    refine ⟨?_, fun x => ?_⟩
    · ext i j
      simp [Matrix.conjTranspose, toMat, hs j j.2 i i.2]
    · have := h (fun i => if hi : i < n then x ⟨i, hi⟩ else 0)
      rw [← key x _ (by intro i; simp)] at this
      exact this
  · rintro ⟨_, h⟩ y
    rw [← key (fun i => y i) y (fun _ => rfl)]
    exact h _

/-- For every singular value decomposition, `(diag (√s) v)ᵀ (diag (√s) v) = c` exactly when `c`
(symmetric) is positive semidefinite. -/
theorem svdRoot_gram_iff {n : ℕ} {c a : ℕ → ℕ → ℝ} (hs : ∀ i < n, ∀ j < n, c i j = c j i)
    (hr : IsSvdRoot n c a) :
    (∀ i < n, ∀ j < n, ∑ k ∈ Finset.range n, a k i * a k j = c i j) ↔ PSD n c := by
  rw [psd_iff_posSemidef hs]
  have hgram : (∀ i < n, ∀ j < n, ∑ k ∈ Finset.range n, a k i * a k j = c i j) ↔
      (toMat n a).transpose * toMat n a = toMat n c := by
    constructor
    · intro h
      ext i j
      rw [Matrix.mul_apply]
      have := h i i.2 j j.2
      rw [Finset.sum_range] at this
      exact this
    · intro h i hi j hj
      have := congrFun (congrFun h ⟨i, hi⟩) ⟨j, hj⟩
      rw [Matrix.mul_apply] at this
      rw [Finset.sum_range]
      exact this
  rw [hgram]
  constructor
  · intro h
    rw [← h]
    have := Matrix.posSemidef_conjTranspose_mul_self (toMat n a)
    rwa [Matrix.conjTranspose_eq_transpose_of_trivial] at this
  · intro hpsd
    obtain ⟨u, v, s, hu, hv, hv', hs0, hc, ha⟩ := hr
    have hP : (toMat n a).transpose * toMat n a = v.transpose * Matrix.diagonal s * v := by
      rw [ha, Matrix.transpose_mul, Matrix.diagonal_transpose]
      rw [Matrix.mul_assoc, ← Matrix.mul_assoc (Matrix.diagonal _) (Matrix.diagonal _) v,
        Matrix.diagonal_mul_diagonal, Matrix.mul_assoc]
      congr 3
      funext i
      exact Real.mul_self_sqrt (hs0 i)
    have hPpsd : ((toMat n a).transpose * toMat n a).PosSemidef := by
      have := Matrix.posSemidef_conjTranspose_mul_self (toMat n a)
      rwa [Matrix.conjTranspose_eq_transpose_of_trivial] at this
    have hsym : (toMat n c).transpose = toMat n c := by
      have := hpsd.1
      rwa [Matrix.IsHermitian, Matrix.conjTranspose_eq_transpose_of_trivial] at this
    have hsq : ((toMat n a).transpose * toMat n a) * ((toMat n a).transpose * toMat n a) =
        toMat n c * toMat n c := by
      have h2 : toMat n c * toMat n c = (toMat n c).transpose * toMat n c := by rw [hsym]
      rw [h2, hP, hc]
      simp only [Matrix.transpose_mul, Matrix.diagonal_transpose, Matrix.mul_assoc]
      rw [← Matrix.mul_assoc v v.transpose, hv, Matrix.one_mul]
      rw [← Matrix.mul_assoc u.transpose u, hu, Matrix.one_mul]
    open scoped MatrixOrder in
    open scoped Matrix.Norms.L2Operator in
    have h1 : CFC.sqrt (((toMat n a).transpose * toMat n a) * ((toMat n a).transpose * toMat n a)) =
        (toMat n a).transpose * toMat n a := CFC.sqrt_mul_self _ hPpsd.nonneg
    open scoped MatrixOrder in
    open scoped Matrix.Norms.L2Operator in
    have h2 : CFC.sqrt (toMat n c * toMat n c) = toMat n c := CFC.sqrt_mul_self _ hpsd.nonneg
    rw [← h1, hsq, h2]

end Verif
