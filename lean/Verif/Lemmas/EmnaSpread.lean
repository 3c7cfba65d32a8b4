/-
What numpy samples for a symmetric matrix that is not positive semidefinite, and when a column of the root of a
matrix vanishes.
-/
import Verif.Props.Law
import Verif.Lemmas.Run
import Verif.Props.Leave

set_option linter.unusedSectionVars false

namespace Verif

open MeasureTheory ProbabilityTheory Spec WithLp

section algebra
variable {n : ℕ} {c a : ℕ → ℕ → ℝ}

theorem svdRoot_gram_sq (hr : IsSvdRoot n c a) :
    ((toMat n a).transpose * toMat n a) * ((toMat n a).transpose * toMat n a) =
      (toMat n c).transpose * toMat n c := by
  obtain ⟨u, v, s, hu, hv, hv', hs0, hc, ha⟩ := hr
  have hP : (toMat n a).transpose * toMat n a = v.transpose * Matrix.diagonal s * v := by
    rw [ha, Matrix.transpose_mul, Matrix.diagonal_transpose]
    rw [Matrix.mul_assoc, ← Matrix.mul_assoc (Matrix.diagonal _) (Matrix.diagonal _) v,
      Matrix.diagonal_mul_diagonal, Matrix.mul_assoc]
    congr 3
    funext i
    exact Real.mul_self_sqrt (hs0 i)
  rw [hP, hc]
  simp only [Matrix.transpose_mul, Matrix.diagonal_transpose, Matrix.mul_assoc]
  rw [← Matrix.mul_assoc v v.transpose, hv, Matrix.one_mul]
  rw [← Matrix.mul_assoc u.transpose u, hu, Matrix.one_mul]

/-- The covariance of what numpy samples is the positive semidefinite matrix with the same square. -/
theorem svdRoot_gram_unique (hs : ∀ i < n, ∀ j < n, c i j = c j i) (hr : IsSvdRoot n c a)
    {P : Matrix (Fin n) (Fin n) ℝ} (hP : P.PosSemidef) (hsq : P * P = toMat n c * toMat n c) :
    (toMat n a).transpose * toMat n a = P := by
  have hsym : (toMat n c).transpose = toMat n c := by
    ext i j; exact hs j j.2 i i.2
  have hG : ((toMat n a).transpose * toMat n a).PosSemidef := by
    have := Matrix.posSemidef_conjTranspose_mul_self (toMat n a)
    rwa [Matrix.conjTranspose_eq_transpose_of_trivial] at this
  have hG2 := svdRoot_gram_sq hr
  rw [hsym, ← hsq] at hG2
  open scoped MatrixOrder in
  open scoped Matrix.Norms.L2Operator in
  have h1 : CFC.sqrt (((toMat n a).transpose * toMat n a) * ((toMat n a).transpose * toMat n a)) =
      (toMat n a).transpose * toMat n a := CFC.sqrt_mul_self _ hG.nonneg
  open scoped MatrixOrder in
  open scoped Matrix.Norms.L2Operator in
  have h2 : CFC.sqrt (P * P) = P := CFC.sqrt_mul_self _ hP.nonneg
  rw [← h1, hG2, h2]

/-- A column of the root vanishes only if the column of the matrix does. -/
theorem svdRoot_col_ne (hr : IsSvdRoot n c a) {i j : ℕ} (hi : i < n) (hj : j < n) (hne : c i j ≠ 0) :
    ∃ k < n, a k j ≠ 0 := by
  by_contra hcon
  push Not at hcon
  obtain ⟨u, v, s, hu, hv, hv', hs0, hc, ha⟩ := hr
  have h0 : ∀ k : Fin n, s k * v k ⟨j, hj⟩ = 0 := by
    intro k
    have := hcon k k.2
    have e : a k j = Real.sqrt (s k) * v k ⟨j, hj⟩ := by
      have := congrFun (congrFun ha k) ⟨j, hj⟩
      rw [Matrix.diagonal_mul] at this
      exact this
    rw [e] at this
    rcases mul_eq_zero.1 this with h | h
    · rw [Real.sqrt_eq_zero (hs0 k)] at h; rw [h, zero_mul]
    · rw [h, mul_zero]
  apply hne
  have := congrFun (congrFun hc ⟨i, hi⟩) ⟨j, hj⟩
  rw [Matrix.mul_assoc, Matrix.mul_apply] at this
  change c i j = _ at this
  rw [this]
  refine Finset.sum_eq_zero fun k _ => ?_
  rw [Matrix.diagonal_mul, h0, mul_zero]

/-- Every symmetric matrix has a singular value decomposition. -/
theorem svdRoot_symmetric (hs : ∀ i < n, ∀ j < n, c i j = c j i) : ∃ a, IsSvdRoot n c a := by
  have hH : (toMat n c).IsHermitian := by
    ext i j
    simp [Matrix.conjTranspose, toMat, hs j j.2 i i.2]
  let U : Matrix (Fin n) (Fin n) ℝ := (hH.eigenvectorUnitary : Matrix (Fin n) (Fin n) ℝ)
  have hU1 : U.transpose * U = 1 := by
    have := Matrix.UnitaryGroup.star_mul_self hH.eigenvectorUnitary
    rwa [Matrix.star_eq_conjTranspose, Matrix.conjTranspose_eq_transpose_of_trivial] at this
  have hU2 : U * U.transpose = 1 := mul_eq_one_comm.1 hU1
  have hspec : toMat n c = U * Matrix.diagonal hH.eigenvalues * U.transpose := by
    have := hH.spectral_theorem
    rw [Unitary.conjStarAlgAut_apply] at this
    exact this
  let E : Fin n → ℝ := fun i => if 0 ≤ hH.eigenvalues i then 1 else -1
  have hE : ∀ i, E i * E i = 1 := by intro i; simp only [E]; split <;> norm_num
  have hE' : ∀ i, E i * |hH.eigenvalues i| = hH.eigenvalues i := by
    intro i; simp only [E]; split
    · rename_i h; rw [abs_of_nonneg h, one_mul]
    · rename_i h; rw [abs_of_neg (not_le.1 h)]; ring
  let A : Matrix (Fin n) (Fin n) ℝ :=
    Matrix.diagonal (fun i => Real.sqrt |hH.eigenvalues i|) * U.transpose
  refine ⟨fun i j => if hi : i < n then if hj : j < n then A ⟨i, hi⟩ ⟨j, hj⟩ else 0 else 0,
    U * Matrix.diagonal E, U.transpose, fun i => |hH.eigenvalues i|, ?_, ?_, ?_, fun i => abs_nonneg _, ?_, ?_⟩
  · rw [Matrix.transpose_mul, Matrix.diagonal_transpose, Matrix.mul_assoc, ← Matrix.mul_assoc U.transpose, hU1,
      Matrix.one_mul, Matrix.diagonal_mul_diagonal]
    rw [show (fun i => E i * E i) = fun _ => (1 : ℝ) from funext hE, Matrix.diagonal_one]
  · rw [Matrix.transpose_transpose]; exact hU1
  · rw [Matrix.transpose_transpose]; exact hU2
  · refine hspec.trans ?_
    rw [Matrix.mul_assoc U (Matrix.diagonal E), Matrix.diagonal_mul_diagonal]
    rw [show (fun i => E i * |hH.eigenvalues i|) = hH.eigenvalues from funext hE']
  · ext i j
    simp [toMat, A]

/-- A function that decomposes every symmetric matrix, as numpy does. -/
theorem svdRoots_symmetric (n : ℕ) : ∃ fac : List (List ℝ) → List (List ℝ), ∀ c,
    (∀ i < n, ∀ j < n, entry c i j = entry c j i) → IsSvdRoot n (entry c) (entry (fac c)) := by
  have h : ∀ c : List (List ℝ), ∃ r : List (List ℝ), (∀ i < n, ∀ j < n, entry c i j = entry c j i) →
      IsSvdRoot n (entry c) (entry r) := by
    intro c
    by_cases hc : ∀ i < n, ∀ j < n, entry c i j = entry c j i
    · obtain ⟨a, ha⟩ := svdRoot_symmetric hc
      refine ⟨(List.range n).map (fun i => (List.range n).map (a i)), fun _ => ?_⟩
      have : toMat n (entry ((List.range n).map (fun i => (List.range n).map (a i)))) = toMat n a := by
        ext i j
        exact entry_map (F := a) i.2 j.2
      unfold IsSvdRoot at ha ⊢
      rw [this]
      exact ha
    · exact ⟨[], fun h1 => absurd h1 hc⟩
  exact ⟨fun c => (h c).choose, fun c => (h c).choose_spec⟩

namespace Spec

/-- The matrix with `d` on the diagonal and `o` elsewhere. -/
def twoValues (n : ℕ) (d o : ℝ) : Matrix (Fin n) (Fin n) ℝ := fun i j => if i = j then d else o

end Spec

theorem twoValues_mul (d o d' o' : ℝ) : twoValues n d o * twoValues n d' o' =
    twoValues n (d * d' + (n - 1) * (o * o')) (d * o' + o * d' + (n - 2) * (o * o')) := by
  have hsplit : ∀ d o : ℝ, twoValues n d o = (d - o) • (1 : Matrix (Fin n) (Fin n) ℝ) + o • Matrix.of fun _ _ => 1 := by
    intro d o
    ext i j
    by_cases h : i = j
    · subst h; simp [twoValues]
    · simp [twoValues, h]
  have hJ : (Matrix.of fun _ _ => 1 : Matrix (Fin n) (Fin n) ℝ) * (Matrix.of fun _ _ => 1) =
      (n : ℝ) • Matrix.of fun _ _ => 1 := by
    ext i j; simp [Matrix.mul_apply]
  rw [hsplit, hsplit, hsplit]
  simp only [add_mul, mul_add, Matrix.smul_mul, Matrix.mul_smul, Matrix.one_mul, Matrix.mul_one, hJ, smul_smul]
  ext i j
  simp only [Matrix.add_apply, Matrix.smul_apply, Matrix.of_apply, smul_eq_mul]
  ring

theorem twoValues_posSemidef {d o : ℝ} (h1 : 0 ≤ o) (h2 : o ≤ d) : (twoValues n d o).PosSemidef := by
  have hsplit : twoValues n d o = (d - o) • (1 : Matrix (Fin n) (Fin n) ℝ) +
      o • Matrix.vecMulVec (fun _ => 1) (star fun _ => 1) := by
    ext i j
    by_cases h : i = j
    · subst h; simp [twoValues, Matrix.vecMulVec_apply]
    · simp [twoValues, h, Matrix.vecMulVec_apply]
  rw [hsplit]
  exact (Matrix.PosSemidef.one.smul (by linarith)).add ((Matrix.posSemidef_vecMulVec_self_star _).smul h1)

/-- What numpy samples for a matrix with zeros on the diagonal and `l` elsewhere. -/
theorem svdRoot_hollow (hn : 2 ≤ n) {l : ℝ} (hl : 0 ≤ l) (hc : toMat n c = twoValues n 0 l) (hr : IsSvdRoot n c a) :
    (toMat n a).transpose * toMat n a = twoValues n (2 * l * (n - 1) / n) (l * (n - 2) / n) := by
  have hn' : (2 : ℝ) ≤ n := by exact_mod_cast hn
  have hn0 : (n : ℝ) ≠ 0 := by linarith
  refine svdRoot_gram_unique ?_ hr (twoValues_posSemidef ?_ ?_) ?_
  · intro i hi j hj
    have h1 := congrFun (congrFun hc ⟨i, hi⟩) ⟨j, hj⟩
    have h2 := congrFun (congrFun hc ⟨j, hj⟩) ⟨i, hi⟩
    simp only [toMat, twoValues] at h1 h2
    rw [h1, h2]
    simp only [eq_comm]
  · exact div_nonneg (mul_nonneg hl (by linarith)) (by linarith)
  · rw [div_le_div_iff_of_pos_right (by linarith)]
    nlinarith
  · rw [hc, twoValues_mul, twoValues_mul]
    congr 1 <;> field_simp <;> ring

end algebra

end Verif
