/-
Covariances in new coordinates.
-/
import Verif.Lemmas.Equivariance
import Verif.Lemmas.Moments
import Verif.Lemmas.KedaRun
import Verif.Spec.Affine

set_option linter.unusedSectionVars false

namespace Verif

open PyCost Spec

section cov
variable {n : ℕ} {B : ℕ → ℕ → ℝ} {v : ℕ → ℝ}

theorem affineCoord_length (x : List ℝ) : (affineCoord n B v x).length = n := by simp [affineCoord]

theorem affineCoord_getD (x : List ℝ) {j : ℕ} (hj : j < n) :
    (affineCoord n B v x).getD j 0 = v j + ∑ i ∈ Finset.range n, x.getD i 0 * B i j := by
  simp [affineCoord, List.getD, hj]

theorem colMean_affine {rows : List (List ℝ)} (hne : rows ≠ []) {j : ℕ} (hj : j < n) :
    colMean (rows.map (affineCoord n B v)) j = v j + ∑ i ∈ Finset.range n, colMean rows i * B i j := by
  have hN : (rows.length : ℝ) ≠ 0 := by
    have := List.length_pos_of_ne_nil hne
    positivity
  have hsum : ∀ l : List (List ℝ), ((l.map (affineCoord n B v)).map (fun r => r.getD j 0)).sum =
      l.length * v j + ∑ i ∈ Finset.range n, (l.map (fun r => r.getD i 0)).sum * B i j := by
    intro l
    induction l with
    | nil => simp
    | cons r l ih =>
      simp only [List.map_cons, List.sum_cons, ih, affineCoord_getD r hj, List.length_cons, add_mul, Finset.sum_add_distrib]
      push_cast
      ring
  simp only [colMean_eq, mean, col, List.length_map, hsum]
  rw [add_div, mul_div_cancel_left₀ _ hN, Finset.sum_div]
  congr 1
  exact Finset.sum_congr rfl fun i _ => by ring

theorem covEntry_affine {rows : List (List ℝ)} (hne : rows ≠ []) {i j : ℕ} (hi : i < n) (hj : j < n) :
    covEntry (rows.map (affineCoord n B v)) i j =
      ∑ a ∈ Finset.range n, ∑ b ∈ Finset.range n, B a i * covEntry rows a b * B b j := by
  have key : ∀ (m : ℕ → ℝ) (l : List (List ℝ)), ((l.map (affineCoord n B v)).map (fun r =>
      (r.getD i 0 - (v i + ∑ a ∈ Finset.range n, m a * B a i)) *
        (r.getD j 0 - (v j + ∑ b ∈ Finset.range n, m b * B b j)))).sum =
      ∑ a ∈ Finset.range n, ∑ b ∈ Finset.range n,
        B a i * (l.map (fun r => (r.getD a 0 - m a) * (r.getD b 0 - m b))).sum * B b j := by
    intro m l
    induction l with
    | nil => simp
    | cons r l ih =>
      have hd : ∀ k < n, (affineCoord n B v r).getD k 0 - (v k + ∑ a ∈ Finset.range n, m a * B a k) =
          ∑ a ∈ Finset.range n, (r.getD a 0 - m a) * B a k := by
        intro k hk
        rw [affineCoord_getD r hk, add_sub_add_left_eq_sub, ← Finset.sum_sub_distrib]
        exact Finset.sum_congr rfl fun a _ => by ring
      simp only [List.map_cons, List.sum_cons, ih, hd i hi, hd j hj, mul_add, add_mul, Finset.sum_add_distrib]
      congr 1
      rw [Finset.sum_mul_sum]
      exact Finset.sum_congr rfl fun a _ => Finset.sum_congr rfl fun b _ => by ring
  unfold covEntry
  simp only [foldl_add_map, colMean_affine hne hi, colMean_affine hne hj, key, List.length_map, zero_add]
  rw [Finset.sum_div]
  refine Finset.sum_congr rfl fun a _ => ?_
  rw [Finset.sum_div]
  exact Finset.sum_congr rfl fun b _ => by ring

theorem toMat_congruence (c : ℕ → ℕ → ℝ) : toMat n (fun i j =>
    ∑ a ∈ Finset.range n, ∑ b ∈ Finset.range n, B a i * c a b * B b j) =
      (toMat n B).transpose * toMat n c * toMat n B := by
  ext i j
  simp only [toMat, Matrix.mul_apply, Matrix.transpose_apply, Finset.sum_range, Finset.sum_mul]
  exact Finset.sum_comm

theorem pd_iff_mat {c : ℕ → ℕ → ℝ} : PD n c ↔ ∀ x : Fin n → ℝ, x ≠ 0 → 0 < x ⬝ᵥ (toMat n c).mulVec x := by
  have key : ∀ x : Fin n → ℝ, ∀ y : ℕ → ℝ, (∀ i : Fin n, y i = x i) →
      x ⬝ᵥ Matrix.mulVec (toMat n c) x = ∑ i ∈ Finset.range n, ∑ j ∈ Finset.range n, y i * c i j * y j := by
    intro x y hxy
    simp only [dotProduct, Matrix.mulVec, toMat]
    rw [Finset.sum_range]
    apply Finset.sum_congr rfl; intro i _
    rw [Finset.sum_range, Finset.mul_sum]
    apply Finset.sum_congr rfl; intro j _
    rw [hxy, hxy]; ring
  constructor
  · intro h x hx
    obtain ⟨i, hi⟩ := Function.ne_iff.1 hx
    have := h (fun k => if hk : k < n then x ⟨k, hk⟩ else 0) ⟨i, i.2, by simpa using hi⟩
    rwa [← key x _ (by intro i; simp)] at this
  · rintro h y ⟨i, hi, hy⟩
    rw [← key (fun i => y i) y (fun _ => rfl)]
    exact h _ (Function.ne_iff.2 ⟨⟨i, hi⟩, hy⟩)

theorem pd_congruence (hB : IsUnit (toMat n B).det) {c c' : ℕ → ℕ → ℝ}
    (h : toMat n c' = (toMat n B).transpose * toMat n c * toMat n B) : PD n c' ↔ PD n c := by
  have key : ∀ x : Fin n → ℝ, x ⬝ᵥ (toMat n c').mulVec x =
      (toMat n B).mulVec x ⬝ᵥ (toMat n c).mulVec ((toMat n B).mulVec x) := by
    intro x
    rw [h, ← Matrix.mulVec_mulVec, ← Matrix.mulVec_mulVec, Matrix.dotProduct_mulVec, Matrix.vecMul_transpose]
  rw [pd_iff_mat, pd_iff_mat]
  constructor
  · intro hc y hy
    have hBy : (toMat n B).mulVec ((toMat n B)⁻¹.mulVec y) = y := by
      rw [Matrix.mulVec_mulVec, Matrix.mul_nonsing_inv _ hB, Matrix.one_mulVec]
    have := hc ((toMat n B)⁻¹.mulVec y) (by
      intro h0
      rw [h0, Matrix.mulVec_zero] at hBy
      exact hy hBy.symm)
    rwa [key, hBy] at this
  · intro hc x hx
    rw [key]
    refine hc _ fun h0 => hx ?_
    have : (toMat n B)⁻¹.mulVec ((toMat n B).mulVec x) = x := by
      rw [Matrix.mulVec_mulVec, Matrix.nonsing_inv_mul _ hB, Matrix.one_mulVec]
    rw [← this, h0, Matrix.mulVec_zero]

theorem pd_psd {c : ℕ → ℕ → ℝ} (h : PD n c) : PSD n c := by
  intro x
  by_cases hx : ∃ i < n, x i ≠ 0
  · exact (h x hx).le
  · push Not at hx
    refine (Finset.sum_eq_zero fun i hi => Finset.sum_eq_zero fun j _ => ?_).ge
    rw [hx i (Finset.mem_range.1 hi)]; ring

end cov

section run
variable {R C σ Ω : Type} [PyCost C] {env : Env C} {e : Eda R σ Ω} {f : ℕ → R → C} {ftol : C} {pm : σ} {ρ : Rand Ω}

/-- Sampling in another way from other draws gives the same run, if the samples agree for the models that are learned. -/
theorem minimize_congr_sample {sp : σ → Ω → Except PyErr (Gen R)} {ω : ℕ → Ω}
    (h : ∀ t s noise s1 noisy m, Visited env { e with sample := sp } f ftol pm ρ t s → e.mkNoise ρ.noise = .ok noise →
      truncation env e s = .ok s1 → noise s1.gen = .ok noisy →
      e.updatePm s1.pm noisy s1.elite (ρ.learn t) = .ok m → sp m (ρ.sample t) = e.sample m (ω t)) :
    minimize env { e with sample := sp } f ftol pm ρ = minimize env e f ftol pm { ρ with sample := ω } := by
  unfold minimize
  have h0 : start env { e with sample := sp } f pm ρ = start env e f pm { ρ with sample := ω } := rfl
  rcases hs : start env { e with sample := sp } f pm ρ with err | s0
  · rw [← h0, hs]
  rw [← h0, hs]
  dsimp only
  rcases hn : e.mkNoise ρ.noise with err | noise
  · rfl
  dsimp only
  have hloop : ∀ (n t : ℕ) s, Visited env { e with sample := sp } f ftol pm ρ t s →
      loop env { e with sample := sp } f ftol ρ noise n t s =
        loop env e f ftol { ρ with sample := ω } noise n t s := by
    intro n
    induction n with
    | zero => intro t s _; rfl
    | succ n ih =>
      intro t s hvis
      have hstep : step env { e with sample := sp } f ftol ρ noise t s =
          step env e f ftol { ρ with sample := ω } noise t s := by
        have htr : truncation env { e with sample := sp } s = truncation env e s := rfl
        unfold step
        rw [htr]
        rcases h1 : truncation env e s with err | s1
        · rfl
        dsimp only
        rcases h2 : noise s1.gen with err | noisy
        · rfl
        dsimp only
        rcases h3 : e.updatePm s1.pm noisy s1.elite (ρ.learn t) with err | m
        · rfl
        dsimp only
        rw [h t s noise s1 noisy m hvis hn h1 h2 h3]
      unfold loop
      rw [← hstep]
      rcases hst : step env { e with sample := sp } f ftol ρ noise t s with err | ⟨s', b⟩
      · rfl
      cases b
      · exact ih (t + 1) s' (.next hvis hn hst)
      · rfl
  rw [hloop _ 1 s0 (.first hs)]

end run

end Verif
