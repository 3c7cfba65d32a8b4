/-
Rotated normal draws have the same law.
-/
import Verif.Props.KedaReach
import Verif.Spec.Affine

set_option linter.unusedSectionVars false

namespace Verif

open MeasureTheory ProbabilityTheory Spec Matrix

variable {n : ℕ} {Q : Matrix (Fin n) (Fin n) ℝ}

theorem measurable_vecMul (Q : Matrix (Fin n) (Fin n) ℝ) : Measurable fun x : Fin n → ℝ => x ᵥ* Q := by
  refine measurable_pi_lambda _ fun j => ?_
  simp only [Matrix.vecMul, dotProduct]
  fun_prop

/-- The standard normal law in `n` dimensions is invariant under rotations. -/
theorem gauss_rotation (hQ : Q.transpose * Q = 1) :
    (Measure.pi fun _ : Fin n => gaussianReal 0 1).map (fun x => x ᵥ* Q) = Measure.pi fun _ : Fin n => gaussianReal 0 1 := by
  have hQ' : Q * Q.transpose = 1 := mul_eq_one_comm.1 hQ
  have hon : Orthonormal ℝ fun i : Fin n => WithLp.toLp 2 (Q i) := by
    rw [orthonormal_iff_ite]
    intro i j
    have := congrFun (congrFun hQ' i) j
    rw [Matrix.mul_apply, Matrix.one_apply] at this
    rw [← this]
    simp only [EuclideanSpace.inner_toLp_toLp, dotProduct, star_trivial, Matrix.transpose_apply]
    exact Finset.sum_congr rfl fun k _ => mul_comm _ _
  have hspan : ⊤ ≤ Submodule.span ℝ (Set.range fun i : Fin n => WithLp.toLp 2 (Q i)) :=
    (hon.linearIndependent.span_eq_top_of_card_eq_finrank' (by simp)).ge
  have h := stdGaussian_eq_map_pi_orthonormalBasis (OrthonormalBasis.mk hon hspan)
  rw [← map_pi_eq_stdGaussian] at h
  have hfun : (fun x : Fin n → ℝ => ∑ i, x i • (OrthonormalBasis.mk hon hspan) i) =
      (WithLp.toLp 2) ∘ fun x => x ᵥ* Q := by
    funext x
    ext j
    simp [Matrix.vecMul, dotProduct]
  rw [hfun, ← Measure.map_map (by fun_prop) (measurable_vecMul Q)] at h
  have h' := congrArg (Measure.map (WithLp.ofLp)) h
  rw [Measure.map_map (by fun_prop) (by fun_prop), Measure.map_map (by fun_prop) (by fun_prop)] at h'
  have hid : (WithLp.ofLp ∘ WithLp.toLp 2 : (Fin n → ℝ) → (Fin n → ℝ)) = id := rfl
  rw [hid, Measure.map_id, Measure.map_id] at h'
  exact h'.symm

/-- The draws of one individual, rotated. -/
noncomputable def rotRow (Q : Matrix (Fin n) (Fin n) ℝ) (z : ℕ → ℝ) : ℕ → ℝ := fun j =>
  if h : j < n then ((fun k : Fin n => z k) ᵥ* Q) ⟨j, h⟩ else z j

theorem measurable_rotRow (Q : Matrix (Fin n) (Fin n) ℝ) : Measurable (rotRow Q) := by
  refine measurable_pi_lambda _ fun j => ?_
  unfold rotRow
  split
  · simp only [Matrix.vecMul, dotProduct]
    fun_prop
  · fun_prop

theorem rotRow_law (hQ : Q.transpose * Q = 1) :
    (Measure.infinitePi (kdeLaw n)).map (rotRow Q) = Measure.infinitePi (kdeLaw n) := by
  set μ := Measure.infinitePi (kdeLaw n) with hμ
  refine Measure.eq_infinitePi _ fun s t ht => ?_
  have hbox : MeasurableSet (Set.pi (s : Set ℕ) t) := .pi s.countable_toSet fun _ _ => ht _
  rw [Measure.map_apply (measurable_rotRow Q) hbox, ← Measure.infinitePi_pi _ fun i _ => ht i, ← hμ]
  -- the normal draws and the others
  let F : (ℕ → ℝ) → Fin n → ℝ := fun z k => z k
  let T : Finset ℕ := s.filter (fun j => n ≤ j)
  let G : (ℕ → ℝ) → T → ℝ := fun z i => z i
  have hF : Measurable F := by fun_prop
  have hG : Measurable G := by fun_prop
  have hind : IndepFun F G μ := by
    have h1 : iIndepFun (fun (i : ℕ) (z : ℕ → ℝ) => z i) μ :=
      iIndepFun_infinitePi (X := fun _ x => x) (P := kdeLaw n) fun _ => measurable_id
    have h2 := h1.indepFun_finset (Finset.range n) T (by
      rw [Finset.disjoint_left]
      intro j hj hj'
      have := (Finset.mem_filter.1 hj').2
      rw [Finset.mem_range] at hj
      omega) fun i => measurable_pi_apply i
    exact h2.comp (φ := fun (x : Finset.range n → ℝ) (k : Fin n) => x ⟨k, Finset.mem_range.2 k.2⟩) (ψ := id)
      (by fun_prop) measurable_id
  let A : Set (Fin n → ℝ) := {x | ∀ k : Fin n, (k : ℕ) ∈ s → x k ∈ t k}
  have hA : MeasurableSet A := by
    have : A = ⋂ k : Fin n, ⋂ _ : (k : ℕ) ∈ s, (fun x : Fin n → ℝ => x k) ⁻¹' t k := by
      ext x; simp [A]
    rw [this]
    exact .iInter fun k => .iInter fun _ => measurable_pi_apply k (ht k)
  let D : Set (T → ℝ) := Set.pi Set.univ fun i => t i
  have hD : MeasurableSet D := .univ_pi fun i => ht i
  have e1 : Set.pi (s : Set ℕ) t = F ⁻¹' A ∩ G ⁻¹' D := by
    ext z
    simp only [Set.mem_pi, Finset.mem_coe, Set.mem_inter_iff, Set.mem_preimage, F, G, A, D, Set.mem_univ, true_imp_iff,
      Set.mem_ofPred_eq]
    constructor
    · exact fun h => ⟨fun k hk => h k hk, fun i => h i (Finset.mem_filter.1 i.2).1⟩
    · rintro ⟨h1, h2⟩ j hj
      rcases lt_or_ge j n with hjn | hjn
      · exact h1 ⟨j, hjn⟩ hj
      · exact h2 ⟨j, Finset.mem_filter.2 ⟨hj, hjn⟩⟩
  have e2 : rotRow Q ⁻¹' Set.pi (s : Set ℕ) t = F ⁻¹' ((fun x => x ᵥ* Q) ⁻¹' A) ∩ G ⁻¹' D := by
    rw [e1, Set.preimage_inter, ← Set.preimage_comp, ← Set.preimage_comp, ← Set.preimage_comp]
    congr 2
    · funext z
      funext k
      simp only [Function.comp, F, rotRow, Fin.is_lt, dite_true, Fin.eta]
    · funext z
      funext i
      have : ¬ (i : ℕ) < n := not_lt.2 (Finset.mem_filter.1 i.2).2
      simp only [Function.comp, G, rotRow, dif_neg this]
  have hlaw : μ.map F = Measure.pi fun _ : Fin n => gaussianReal 0 1 := by
    have := infinitePi_map_fin (μ := kdeLaw n) (m := n) (idx := fun k => (k : ℕ)) Fin.val_injective
    rw [← hμ] at this
    refine this.trans ?_
    congr 1
    funext k
    rw [kdeLaw, if_pos k.2]
  rw [e2, e1, hind.measure_inter_preimage_eq_mul _ _ (measurable_vecMul Q hA) hD,
    hind.measure_inter_preimage_eq_mul _ _ hA hD, ← Measure.map_apply hF (measurable_vecMul Q hA),
    ← Measure.map_apply hF hA, hlaw, ← Measure.map_apply (measurable_vecMul Q) hA, gauss_rotation hQ]

/-- Rotating the normal draws of a generation by an orthogonal matrix does not change their law. -/
theorem rotated_law (hQ : Q.transpose * Q = 1) :
    (drawsLaw (kdeLaw n)).map (rotated n Q) = drawsLaw (kdeLaw n) := by
  have h := Measure.infinitePi_map_pi (μ := fun _ : ℕ => Measure.infinitePi (kdeLaw n))
    (f := fun _ => rotRow Q) fun _ => measurable_rotRow Q
  simp only [rotRow_law hQ] at h
  exact h

theorem rotRow_inv (hQ : Q * Q.transpose = 1) (z : ℕ → ℝ) : rotRow Q.transpose (rotRow Q z) = z := by
  funext j
  by_cases h : j < n
  · have h1 : (fun k : Fin n => rotRow Q z k) = (fun k : Fin n => z k) ᵥ* Q := by
      funext k
      simp [rotRow]
    rw [rotRow, dif_pos h, h1, Matrix.vecMul_vecMul, hQ, Matrix.vecMul_one]
  · simp [rotRow, h]

/-- The same for arbitrary events. -/
theorem rotated_preimage (hQ : Q.transpose * Q = 1) (X : Set (Draws ℝ)) :
    drawsLaw (kdeLaw n) (rotated n Q ⁻¹' X) = drawsLaw (kdeLaw n) X := by
  have hm : ∀ Q : Matrix (Fin n) (Fin n) ℝ, Measurable (rotated n Q) := fun Q =>
    measurable_pi_lambda _ fun i => (measurable_rotRow Q).comp (measurable_pi_apply i)
  have hQ' : Q * Q.transpose = 1 := mul_eq_one_comm.1 hQ
  let E : Draws ℝ ≃ᵐ Draws ℝ :=
    { toFun := rotated n Q
      invFun := rotated n Q.transpose
      left_inv := fun z => funext fun i => rotRow_inv hQ' (z i)
      right_inv := fun z => funext fun i => by
        have := rotRow_inv (Q := Q.transpose) (by rw [Matrix.transpose_transpose]; exact hQ) (z i)
        rwa [Matrix.transpose_transpose] at this
      measurable_toFun := hm Q
      measurable_invFun := hm Q.transpose }
  have hE : MeasurePreserving E (drawsLaw (kdeLaw n)) (drawsLaw (kdeLaw n)) := ⟨hm Q, rotated_law hQ⟩
  exact hE.measure_preimage_equiv X

/-- The numbers that choose the points are in `[0, 1)`. -/
theorem kdeLaw_unit (n : ℕ) : ∀ᵐ z ∂drawsLaw (kdeLaw n), ∀ i, z i n ∈ Set.Ico (0 : ℝ) 1 := by
  rw [ae_all_iff]
  intro i
  have h1 : ∀ᵐ u ∂kdeLaw n n, u ∈ Set.Ico (0 : ℝ) 1 := by
    rw [kdeLaw, if_neg (lt_irrefl n), unif01]
    exact ae_restrict_mem measurableSet_Ico
  have h2 : ∀ᵐ r ∂Measure.infinitePi (kdeLaw n), r n ∈ Set.Ico (0 : ℝ) 1 :=
    (measurePreserving_eval_infinitePi (kdeLaw n) n).quasiMeasurePreserving.ae h1
  exact (measurePreserving_eval_infinitePi (fun _ : ℕ => Measure.infinitePi (kdeLaw n)) i).quasiMeasurePreserving.ae h2

section run
variable {R C σ Ω : Type} [PyCost C] {env : Env C} {e : Eda R σ Ω} {f : ℕ → R → C} {ftol : C} {pm : σ} {ρ : Rand Ω}

/-- A run uses the draws for the generations `1, …, max_iter - 1` only. -/
theorem minimize_used_draws {ω ω' : ℕ → Ω} (h : ∀ t : ℕ, 1 ≤ t → (t : ℤ) < e.maxIter → ω t = ω' t) :
    minimize env e f ftol pm { ρ with sample := ω } = minimize env e f ftol pm { ρ with sample := ω' } := by
  unfold minimize
  have h0 : start env e f pm { ρ with sample := ω } = start env e f pm { ρ with sample := ω' } := rfl
  rw [h0]
  rcases start env e f pm { ρ with sample := ω' } with err | s0
  · rfl
  dsimp only
  rcases e.mkNoise ρ.noise with err | noise
  · rfl
  dsimp only
  have hloop : ∀ (k t : ℕ) s, 1 ≤ t → (t : ℤ) + k ≤ max e.maxIter t →
      loop env e f ftol { ρ with sample := ω } noise k t s = loop env e f ftol { ρ with sample := ω' } noise k t s := by
    intro k
    induction k with
    | zero => intro t s _ _; rfl
    | succ k ih =>
      intro t s h1 hle
      have ht : (t : ℤ) < e.maxIter := by
        push_cast at hle
        rcases le_total e.maxIter t with hmx | hmx
        · rw [max_eq_right hmx] at hle; omega
        · rw [max_eq_left hmx] at hle; omega
      have hstep : step env e f ftol { ρ with sample := ω } noise t s =
          step env e f ftol { ρ with sample := ω' } noise t s := by
        unfold step
        dsimp only
        rw [h t h1 ht]
      unfold loop
      rw [hstep]
      rcases step env e f ftol { ρ with sample := ω' } noise t s with err | ⟨s', b⟩
      · rfl
      cases b
      · refine ih (t + 1) s' (by omega) ?_
        push_cast at hle ⊢
        rw [max_eq_left ht.le] at hle
        exact (show (t : ℤ) + 1 + k ≤ e.maxIter by omega).trans (le_max_left _ _)
      · rfl
  rw [hloop _ 1 s0 le_rfl (by rw [Nat.cast_one]; omega)]

end run

end Verif
