/-
C55: the moments of the individuals sampled by the Gaussian models.
-/
import Verif.Lemmas.Moments
import Verif.Props.MultiGauss

set_option linter.unusedSectionVars false

namespace Verif

open Spec

variable {n : ℕ} {dom : ((ℕ → ℝ) → ℝ) → Prop} {E : ((ℕ → ℝ) → ℝ) → ℝ}

/-- **C55** for `UniGauss`: every value sampled for variable `j` is a function `x j` of the draws of
its individual, with mean `pm[0, j]`, variance `pm[1, j]²` and no correlation between variables. -/
theorem C55_uni_gauss (hE : Expectation n dom E) {b : UniGauss ℝ} {lb : ℝ} (hb : b.Good n lb) :
    ∃ x : ℕ → (ℕ → ℝ) → ℝ,
      (∀ size ω out, b.sample size ω = .ok out → ∀ (i : ℕ) (r : List ℝ), out.rows[i]? = some r →
        ∀ j < n, r[j]? = some (x j (ω i))) ∧
      (∀ j < n, some (E (x j)) = b.mean[j]?) ∧
      (∀ j < n, some (Cov E (x j) (x j)) = b.std[j]?.map (fun s => s * s)) ∧
      ∀ i < n, ∀ j < n, i ≠ j → Cov E (x i) (x j) = 0 := by
  refine ⟨fun j => affine n (b.mean.getD j 0) (fun k => if k = j then b.std.getD j 0 else 0),
    ?_, ?_, ?_, ?_⟩
  · intro size ω out h i r hr j hj
    have hs : 0 ≤ size := by
      have := (UniGauss.sample_shape h).2.2.2
      omega
    rw [UniGauss.sample_eq hb hs] at h
    rw [← Except.ok.inj h] at hr
    simp only [List.getElem?_map] at hr
    obtain ⟨i', hi', rfl⟩ := Option.map_eq_some_iff.1 hr
    have : i' = i := by
      rw [List.getElem?_eq_some_iff] at hi'
      obtain ⟨h1, h2⟩ := hi'
      rw [← h2]; simp
    subst this
    rw [List.getElem?_map, List.getElem?_range hj]
    simp only [Option.map_some, Option.some.injEq, affine]
    rw [Finset.sum_eq_single j]
    · rw [if_pos rfl]; ring
    · intro k _ hk; rw [if_neg hk, mul_zero]
    · intro hk; exact absurd (Finset.mem_range.2 hj) hk
  · intro j hj
    rw [exp_affine hE, List.getD_eq_getElem?_getD, List.getElem?_eq_getElem (by rw [hb.mean]; exact hj)]
    rfl
  · intro j hj
    rw [cov_affine hE, Finset.sum_eq_single j, if_pos rfl, List.getD_eq_getElem?_getD,
      List.getElem?_eq_getElem (by rw [hb.std]; exact hj)]
    · rfl
    · intro k _ hk; rw [if_neg hk, mul_zero]
    · intro hk; exact absurd (Finset.mem_range.2 hj) hk
  · intro i _ j _ hij
    rw [cov_affine hE]
    apply Finset.sum_eq_zero
    intro k _
    by_cases h1 : k = i
    · subst h1; rw [if_neg hij, mul_zero]
    · rw [if_neg h1, zero_mul]

/-- **C55** for `MultiGauss`: the sampled values have mean `pm_means`, whatever the matrix; they have
covariance `pm_cov` if and only if that (symmetric) matrix is positive semidefinite. -/
theorem C55_multi_gauss_partial (hE : Expectation n dom E) {b : MultiGauss ℝ} (hb : b.Good n)
    {fac : List (List ℝ) → List (List ℝ)} (hsvd : IsSvdRoot n (entry b.cov) (entry (fac b.cov)))
    (hsym : ∀ i < n, ∀ j < n, entry b.cov i j = entry b.cov j i) :
    ∃ x : ℕ → (ℕ → ℝ) → ℝ,
      (∀ size ω out, b.sample fac size ω = .ok out → ∀ (i : ℕ) (r : List ℝ), out.rows[i]? = some r →
        ∀ j < n, r[j]? = some (x j (ω i))) ∧
      (∀ j < n, some (E (x j)) = b.means[j]?) ∧
      ((∀ i < n, ∀ j < n, Cov E (x i) (x j) = entry b.cov i j) ↔ PSD n (entry b.cov)) := by
  refine ⟨fun j => affine n (b.means.getD j 0) (fun k => entry (fac b.cov) k j), ?_, ?_, ?_⟩
  · intro size ω out h i r hr j hj
    have hs : 0 ≤ size := by
      have := (MultiGauss.sample_shape h).2.2.2
      omega
    rw [MultiGauss.sample_eq hb hs] at h
    rw [← Except.ok.inj h] at hr
    simp only [List.getElem?_map] at hr
    obtain ⟨i', hi', rfl⟩ := Option.map_eq_some_iff.1 hr
    have : i' = i := by
      rw [List.getElem?_eq_some_iff] at hi'
      obtain ⟨h1, h2⟩ := hi'
      rw [← h2]; simp
    subst this
    rw [List.getElem?_map, List.getElem?_range hj]
    simp only [Option.map_some, Option.some.injEq, affine]
    congr 1
  · intro j hj
    rw [exp_affine hE, List.getD_eq_getElem?_getD, List.getElem?_eq_getElem (by rw [hb.means]; exact hj)]
    rfl
  · rw [← svdRoot_gram_iff hsym hsvd]
    constructor
    · intro h i hi j hj
      rw [← h i hi j hj, cov_affine hE]
    · intro h i hi j hj
      rw [← h i hi j hj, cov_affine hE]

/-- The average over the four corners `(±1, ±1)` is an expectation for two draws. -/
noncomputable def Ex.corners (f : (ℕ → ℝ) → ℝ) : ℝ :=
  (f (fun _ => 1) + f (fun _ => -1) + f (fun k => if k = 0 then 1 else -1) +
    f (fun k => if k = 0 then -1 else 1)) / 4

theorem Ex.corners_expectation : Expectation 2 (fun _ => True) Ex.corners where
  domAdd := fun _ _ _ _ => trivial
  domSmul := fun _ _ _ => trivial
  domOne := trivial
  domDraw := fun _ _ => trivial
  domMul := fun _ _ _ _ => trivial
  add := by intro f g _ _; simp only [Ex.corners]; ring
  smul := by intro c f _; simp only [Ex.corners]; ring
  one := by simp only [Ex.corners]; norm_num
  mean := by
    intro k hk
    have : k = 0 ∨ k = 1 := by omega
    rcases this with rfl | rfl <;> (simp only [Ex.corners]; norm_num)
  var := by
    intro k hk
    have : k = 0 ∨ k = 1 := by omega
    rcases this with rfl | rfl <;> (simp only [Ex.corners]; norm_num)
  uncorrelated := by
    intro k hk l hl hkl
    have hk : k = 0 ∨ k = 1 := by omega
    have hl : l = 0 ∨ l = 1 := by omega
    rcases hk with rfl | rfl <;> rcases hl with rfl | rfl <;>
      first | exact absurd rfl hkl | (simp only [Ex.corners]; norm_num)

/-- **C55** fails for the matrix that `MultiGauss` learns from a converged population (see C26): for
every expectation and every singular value decomposition the covariance of the sampled individuals
is not the learned matrix. -/
theorem C55_refuted (hE : Expectation 2 dom E) {fac : List (List ℝ) → List (List ℝ)} :
    ∃ b', (MultiGauss.new 2 (1/2 : ℝ) 100).learn Real.sqrt Ex.narrow = .ok b' ∧
      (IsSvdRoot 2 (entry b'.cov) (entry (fac b'.cov)) → ∃ x : ℕ → (ℕ → ℝ) → ℝ,
        (∀ size ω out, b'.sample fac size ω = .ok out → ∀ (i : ℕ) (r : List ℝ),
          out.rows[i]? = some r → ∀ j < 2, r[j]? = some (x j (ω i))) ∧
        ∃ i < 2, ∃ j < 2, Cov E (x i) (x j) ≠ entry b'.cov i j) := by
  obtain ⟨b', h, _, hn⟩ := C26_refuted
  refine ⟨b', h, fun hsvd => ?_⟩
  obtain ⟨b1, h1, _, _, _, _, hcv⟩ := C26_learn_partial (g := Ex.narrow)
    (b := MultiGauss.new 2 (1/2 : ℝ) 100) real_isSqrt rfl (le_refl _) (le_refl _)
    (by show (1/2 : ℝ) ≤ 100; norm_num)
  obtain ⟨b2, h2, hg⟩ := MultiGauss.learn_good (sq := Real.sqrt) (g := Ex.narrow)
    (MultiGauss.new_good 2 (1/2 : ℝ) 100) rfl (le_refl _) (le_refl _)
  rw [h] at h1 h2
  obtain rfl := Except.ok.inj h1
  obtain rfl := Except.ok.inj h2
  obtain ⟨x, hx, _, hiff⟩ := C55_multi_gauss_partial hE hg hsvd
    (fun i hi j hj => (hcv i hi j hj).1)
  refine ⟨x, hx, ?_⟩
  by_contra hcon
  push Not at hcon
  exact hn (hiff.1 hcon)

/-- The two theorems for a model with diagonal covariance. -/
example : ∃ x : ℕ → (ℕ → ℝ) → ℝ, Cov Ex.corners (x 0) (x 0) = 4 ∧ Ex.corners (x 1) = 7 := by
  obtain ⟨x, _, hm, hv, _⟩ := C55_uni_gauss (b := ⟨2, 0, [5, 7], [2, 3]⟩) (lb := 0)
    Ex.corners_expectation ⟨rfl, rfl, rfl, rfl, by simp⟩
  refine ⟨x, ?_, ?_⟩
  · have := hv 0 (by omega)
    simp at this
    rw [this]; norm_num
  · simpa using hm 1 (by omega)

example : IsSvdRoot 2 (entry [[4, 0], [0, 9]]) (entry [[2, 0], [0, 3]]) := by
  refine ⟨1, 1, ![4, 9], by simp, by simp, by simp, ?_, ?_, ?_⟩
  · intro i
    have : i = 0 ∨ i = 1 := by omega
    rcases this with rfl | rfl <;> simp
  · ext i j
    have hi : i = 0 ∨ i = 1 := by omega
    have hj : j = 0 ∨ j = 1 := by omega
    rcases hi with rfl | rfl <;> rcases hj with rfl | rfl <;> simp [toMat, entry]
  · ext i j
    have h4 : Real.sqrt 4 = 2 := by
      rw [show (4 : ℝ) = 2 * 2 by norm_num]; exact Real.sqrt_mul_self (by norm_num)
    have h9 : Real.sqrt 9 = 3 := by
      rw [show (9 : ℝ) = 3 * 3 by norm_num]; exact Real.sqrt_mul_self (by norm_num)
    have hi : i = 0 ∨ i = 1 := by omega
    have hj : j = 0 ∨ j = 1 := by omega
    rcases hi with rfl | rfl <;> rcases hj with rfl | rfl <;> simp [toMat, entry, h4, h9]

end Verif
