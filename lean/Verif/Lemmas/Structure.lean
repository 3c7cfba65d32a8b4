/-
Independence of two variables of random individuals, for C86.
-/
import Verif.Spec.Structure
import Verif.Props.Law
import Verif.Lemmas.Gaussian
import Verif.Lemmas.Net
import Verif.Lemmas.Kde
import Mathlib.Logic.Function.DependsOn
import Mathlib.Probability.Distributions.Gaussian.HasGaussianLaw.Independence

set_option linter.unusedSectionVars false

namespace Verif

open MeasureTheory ProbabilityTheory Spec WithLp

theorem linked_refl {L : Type} (arcs : List (L × L)) (i : L) : Linked arcs i i := ⟨i, .refl, .refl⟩

theorem linked_nil {L : Type} {i j : L} : Linked [] i j ↔ i = j := by
  have key : ∀ a b : L, Relation.ReflTransGen (fun x y => (x, y) ∈ ([] : List (L × L))) a b → a = b := by
    intro a b h
    induction h with
    | refl => rfl
    | tail _ h _ => simp at h
  constructor
  · rintro ⟨a, h1, h2⟩
    rw [← key _ _ h1, ← key _ _ h2]
  · rintro rfl; exact linked_refl _ _

section
variable {Ω : Type} [MeasurableSpace Ω] {P : Measure Ω} {s n : ℕ}

/-- Independent values fit every list of arcs. -/
theorem structure_of_cells {V L : Type} [MeasurableSpace V]
    {draw : Ω → Except PyErr (Gen (List V))} {law : Fin n → Measure V} {name : ℕ → L} {arcs : List (L × L)}
    (h : IndepCells P s n draw law) : StructureHolds P s n draw name arcs := by
  obtain ⟨X, h1, h2, _⟩ := h
  refine ⟨X, h1, fun i j k hjk => h2.indepFun ?_⟩
  intro he
  apply hjk
  have : j = k := (Prod.mk.inj he).2
  rw [this]
  exact linked_refl _ _

/-- Whether the arcs fit is decided by the law of an individual. -/
theorem structure_iff {L : Type} {draw : Ω → Except PyErr (Gen (List ℝ))}
    {law : Measure (EuclideanSpace ℝ (Fin n))} [IsProbabilityMeasure law] {name : ℕ → L} {arcs : List (L × L)}
    (h : IndepRows P s n draw law) (hs : 0 < s) :
    StructureHolds P s n draw name arcs ↔ ∀ j k : Fin n, ¬ Linked arcs (name j) (name k) →
      IndepFun (fun x : EuclideanSpace ℝ (Fin n) => x j) (fun x => x k) law := by
  obtain ⟨X, hX, _, hl⟩ := h
  have hP : IsProbabilityMeasure P := (hl ⟨0, hs⟩).isProbabilityMeasure
  have hm : ∀ j : Fin n, Measurable (fun x : EuclideanSpace ℝ (Fin n) => x j) := fun j => by fun_prop
  have key : ∀ (i : Fin s) (j k : Fin n), IndepFun (fun ω => X i ω j) (fun ω => X i ω k) P ↔
      IndepFun (fun x : EuclideanSpace ℝ (Fin n) => x j) (fun x => x k) law := by
    intro i j k
    have hXm := (hl i).aemeasurable
    have hXj : ∀ j : Fin n, AEMeasurable (fun ω => X i ω j) P := fun j => (hm j).comp_aemeasurable hXm
    rw [indepFun_iff_map_prod_eq_prod_map_map (hXj j) (hXj k),
      indepFun_iff_map_prod_eq_prod_map_map (hm j).aemeasurable (hm k).aemeasurable]
    have e1 : P.map (fun ω => (X i ω j, X i ω k)) = law.map (fun x => (x j, x k)) := by
      rw [← (hl i).map_eq, AEMeasurable.map_map_of_aemeasurable ((hm j).prodMk (hm k)).aemeasurable hXm]
      rfl
    have e2 : ∀ j : Fin n, P.map (fun ω => X i ω j) = law.map (fun x => x j) := by
      intro j
      rw [← (hl i).map_eq, AEMeasurable.map_map_of_aemeasurable (hm j).aemeasurable hXm]
      rfl
    rw [show (fun ω => ((fun ω => X i ω j) ω, (fun ω => X i ω k) ω)) = fun ω => (X i ω j, X i ω k) from rfl,
      e1, e2, e2]
  constructor
  · rintro ⟨Y, hY, hi⟩ j k hjk
    rw [← key ⟨0, hs⟩ j k]
    have hae : ∀ j : Fin n, Y (⟨0, hs⟩, j) =ᵐ[P] fun ω => X ⟨0, hs⟩ ω j := by
      intro j
      filter_upwards [hX, hY] with ω h1 h2
      obtain ⟨g, hg, _, _, h1⟩ := h1
      obtain ⟨g', hg', _, _, h2⟩ := h2
      rw [hg] at hg'
      obtain rfl := Except.ok.inj hg'
      obtain ⟨r, hr, _, h1⟩ := h1 ⟨0, hs⟩
      obtain ⟨r', hr', _, h2⟩ := h2 ⟨0, hs⟩
      rw [hr] at hr'
      obtain rfl := Option.some.inj hr'
      have := h2 j
      rw [h1 j] at this
      exact (Option.some.inj this).symm
    exact (hi ⟨0, hs⟩ j k hjk).congr (hae j) (hae k)
  · intro h
    exact ⟨fun c ω => X c.1 ω c.2, hX, fun i j k hjk => (key i j k).2 (h j k hjk)⟩

end

section
variable {n : ℕ} {μ : EuclideanSpace ℝ (Fin n)} {S : Matrix (Fin n) (Fin n) ℝ}

theorem gauss_memLp (j : Fin n) : MemLp (fun x : EuclideanSpace ℝ (Fin n) => x j) 2 (multivariateGaussian μ S) :=
  (EuclideanSpace.proj (𝕜 := ℝ) j).comp_memLp' (IsGaussian.memLp_two_id (μ := multivariateGaussian μ S))

theorem gauss_mean (j : Fin n) : ∫ x, x j ∂(multivariateGaussian μ S) = μ j := by
  have h := ContinuousLinearMap.integral_comp_id_comm
    (IsGaussian.integrable_id (μ := multivariateGaussian μ S)) (EuclideanSpace.proj (𝕜 := ℝ) j)
  simpa using h

/-- Two variables of a normal individual are independent if and only if their covariance is zero. -/
theorem gauss_indep_iff (hS : S.PosSemidef) (j k : Fin n) :
    IndepFun (fun x : EuclideanSpace ℝ (Fin n) => x j) (fun x => x k) (multivariateGaussian μ S) ↔ S j k = 0 := by
  rw [← covariance_eval_multivariateGaussian (μ := μ) hS j k]
  constructor
  · exact fun h => h.covariance_eq_zero (gauss_memLp j) (gauss_memLp k)
  · refine HasGaussianLaw.indepFun_of_covariance_eq_zero ?_
    have h : HasGaussianLaw (fun x : EuclideanSpace ℝ (Fin n) => x) (multivariateGaussian μ S) :=
      ⟨by simpa using (inferInstance : IsGaussian (multivariateGaussian μ S))⟩
    exact h.map ((EuclideanSpace.proj (𝕜 := ℝ) j).prod (EuclideanSpace.proj (𝕜 := ℝ) k))

/-- Second moments of a normal individual around any point. -/
theorem gauss_moment (hS : S.PosSemidef) (j k : Fin n) (a b : ℝ) :
    Integrable (fun x : EuclideanSpace ℝ (Fin n) => (x j - a) * (x k - b)) (multivariateGaussian μ S) ∧
    ∫ x, (x j - a) * (x k - b) ∂(multivariateGaussian μ S) = S j k + (μ j - a) * (μ k - b) := by
  have h1 : MemLp (fun x : EuclideanSpace ℝ (Fin n) => x j - a) 2 (multivariateGaussian μ S) :=
    (gauss_memLp j).sub (memLp_const a)
  have h2 : MemLp (fun x : EuclideanSpace ℝ (Fin n) => x k - b) 2 (multivariateGaussian μ S) :=
    (gauss_memLp k).sub (memLp_const b)
  refine ⟨h1.integrable_mul h2, ?_⟩
  have h := covariance_eq_sub h1 h2
  rw [covariance_sub_const_left, covariance_sub_const_right, covariance_eval_multivariateGaussian hS,
    integral_sub ((gauss_memLp j).integrable (by norm_num)) (integrable_const a),
    integral_sub ((gauss_memLp k).integrable (by norm_num)) (integrable_const b), gauss_mean, gauss_mean] at h
  · simp only [integral_const, probReal_univ, smul_eq_mul, Pi.mul_apply] at h
    linarith
  · exact (gauss_memLp k).integrable (by norm_num)
  · exact (gauss_memLp j).integrable (by norm_num)

end

/-- Independent draws on disjoint index sets give independent values. -/
theorem draws_indep {f g : (ℕ → ℝ) → ℝ} (hf : Measurable f) (hg : Measurable g) {A B : Finset ℕ}
    (hA : DependsOn f (A : Set ℕ)) (hB : DependsOn g (B : Set ℕ)) (hd : Disjoint A B) :
    IndepFun f g normalDraws := by
  have hI : iIndepFun (fun (x : ℕ) (u : ℕ → ℝ) => u x) normalDraws :=
    iIndepFun_infinitePi (P := fun _ : ℕ => gaussianReal 0 1) (X := fun _ v => v) (fun _ => measurable_id)
  have h := hI.indepFun_finset A B hd (fun x => measurable_pi_apply x)
  classical
  let ext : (A : Finset ℕ) → (A → ℝ) → (ℕ → ℝ) := fun A v x => if hx : x ∈ A then v ⟨x, hx⟩ else 0
  have hext : ∀ A, Measurable (ext A) := by
    intro A
    refine measurable_pi_lambda _ fun x => ?_
    by_cases hx : x ∈ A
    · simp only [ext, hx, dite_true]; exact measurable_pi_apply _
    · simp only [ext, hx, dite_false]; exact measurable_const
  have h2 := h.comp (φ := f ∘ ext A) (ψ := g ∘ ext B) (hf.comp (hext A)) (hg.comp (hext B))
  have e1 : ∀ (A : Finset ℕ) {f : (ℕ → ℝ) → ℝ}, DependsOn f (A : Set ℕ) →
      (f ∘ ext A) ∘ (fun u (x : A) => u x) = f := by
    intro A f hA
    funext u
    refine hA fun x hx => ?_
    have hx : x ∈ A := hx
    simp [ext, hx]
  rw [e1 A hA, e1 B hB] at h2
  exact h2

section
variable {L : Type} [DecidableEq L] {net : GNet L ℝ} {X : L → (ℕ → ℝ) → ℝ} {arcs : List (L × L)}

theorem linear_measurable {c : CPD L ℝ} {X : L → (ℕ → ℝ) → ℝ} (h : ∀ p ∈ c.evidence, Measurable (X p)) :
    Measurable (fun z => linear c (fun p => X p z)) := by
  unfold linear
  refine measurable_const.add ?_
  generalize c.beta.drop 1 = bs
  generalize c.evidence = ps at h
  induction bs generalizing ps with
  | nil => simp
  | cons b bs ih =>
    cases ps with
    | nil => simp
    | cons p ps =>
      simp only [List.zipWith_cons_cons, List.sum_cons]
      exact ((h p (by simp)).const_mul b).add (ih ps fun q hq => h q (by simp [hq]))

/-- A node of the network is a measurable function of the draws of its ancestors. -/
theorem node_ancestors (hw : NetWf net) (hX : Follows net X)
    (harcs : ∀ l ∈ net.top, ∀ p ∈ (net.cpd l).evidence, (p, l) ∈ arcs) (i : ℕ) :
    ∀ l, net.top[i]? = some l → Measurable (X l) ∧
      DependsOn (X l) {k | ∃ a, net.top[k]? = some a ∧ Relation.ReflTransGen (fun x y => (x, y) ∈ arcs) a l} := by
  induction i using Nat.strong_induction_on with
  | _ i ih =>
    intro l hl
    have hmem : l ∈ net.top := List.mem_of_getElem? hl
    have hpar : ∀ p ∈ (net.cpd l).evidence, ∃ k < i, net.top[k]? = some p := by
      intro p hp
      obtain ⟨k, hk⟩ := List.mem_iff_getElem?.1 (hw.order i l hl p hp)
      rw [List.getElem?_take] at hk
      split at hk
      · exact ⟨k, by assumption, hk⟩
      · cases hk
    constructor
    · have h : X l = fun z => linear (net.cpd l) (fun p => X p z) + Real.sqrt (net.cpd l).variance * z i := by
        funext z; exact hX i l hl z
      rw [h]
      refine (linear_measurable fun p hp => ?_).add ((measurable_pi_apply i).const_mul _)
      obtain ⟨k, hk, hkp⟩ := hpar p hp
      exact (ih k hk p hkp).1
    · intro z z' hz
      rw [hX i l hl z, hX i l hl z', hz i ⟨l, hl, .refl⟩]
      congr 1
      refine linear_congr _ fun p hp => ?_
      obtain ⟨k, hk, hkp⟩ := hpar p hp
      refine (ih k hk p hkp).2 fun m hm => hz m ?_
      obtain ⟨a, ha, hap⟩ := hm
      exact ⟨a, ha, hap.tail (harcs l hmem p hp)⟩

/-- Nodes without a common ancestor are independent. -/
theorem unlinked_indep (hw : NetWf net) (hX : Follows net X)
    (harcs : ∀ l ∈ net.top, ∀ p ∈ (net.cpd l).evidence, (p, l) ∈ arcs) {l m : L} (hl : l ∈ net.top)
    (hm : m ∈ net.top) (h : ¬ Linked arcs l m) : IndepFun (X l) (X m) normalDraws := by
  classical
  obtain ⟨h1, h2⟩ := node_ancestors hw hX harcs _ _ (top_pos hl)
  obtain ⟨h3, h4⟩ := node_ancestors hw hX harcs _ _ (top_pos hm)
  let A : L → Finset ℕ := fun l => (Finset.range net.top.length).filter (fun k =>
    ∃ a, net.top[k]? = some a ∧ Relation.ReflTransGen (fun x y => (x, y) ∈ arcs) a l)
  have hA : ∀ l, {k | ∃ a, net.top[k]? = some a ∧ Relation.ReflTransGen (fun x y => (x, y) ∈ arcs) a l} =
      (A l : Set ℕ) := by
    intro l
    ext k
    simp only [A, Finset.coe_filter, Finset.mem_range, Set.mem_ofPred_eq]
    constructor
    · rintro ⟨a, ha, hr⟩
      exact ⟨(List.getElem?_eq_some_iff.1 ha).1, a, ha, hr⟩
    · exact fun h => h.2
  rw [hA] at h2 h4
  refine draws_indep h1 h3 h2 h4 ?_
  rw [Finset.disjoint_left]
  intro k hk hk'
  simp only [A, Finset.mem_filter] at hk hk'
  obtain ⟨_, a, ha, hr⟩ := hk
  obtain ⟨_, a', ha', hr'⟩ := hk'
  rw [ha] at ha'
  obtain rfl := Option.some.inj ha'
  exact h ⟨a, hr, hr'⟩

end

/-- Moments of a mixture. -/
theorem mixture_integral {V : Type} [MeasurableSpace V] {N : ℕ} {law : ℕ → Measure V} {f : V → ℝ}
    (hf : ∀ k, Integrable f (law k)) :
    ∫ x, f x ∂(mixture N law) = (∑ k ∈ Finset.range N, ∫ x, f x ∂(law k)) / N := by
  unfold mixture
  rw [integral_smul_measure, integral_finsetSum_measure fun k _ => hf k, smul_eq_mul, ENNReal.toReal_inv,
    ENNReal.toReal_natCast]
  field_simp

theorem mixture_memLp {V : Type} [MeasurableSpace V] {N : ℕ} (hN : 0 < N) {law : ℕ → Measure V} {f : V → ℝ}
    (hm : Measurable f) (hf : ∀ k, MemLp f 2 (law k)) : MemLp f 2 (mixture N law) := by
  rw [memLp_two_iff_integrable_sq hm.aestronglyMeasurable]
  unfold mixture
  refine Integrable.smul_measure ?_ (by simp; omega)
  rw [integrable_finsetSum_measure]
  exact fun k _ => (memLp_two_iff_integrable_sq hm.aestronglyMeasurable).1 (hf k)

/-- A function that decomposes every covariance matrix, as numpy does. -/
theorem svdRoots_exist (n : ℕ) : ∃ fac : List (List ℝ) → List (List ℝ), ∀ c,
    (∀ i < n, ∀ j < n, entry c i j = entry c j i) → PSD n (entry c) →
      IsSvdRoot n (entry c) (entry (fac c)) := by
  have h : ∀ c : List (List ℝ), ∃ r : List (List ℝ), (∀ i < n, ∀ j < n, entry c i j = entry c j i) →
      PSD n (entry c) → IsSvdRoot n (entry c) (entry r) := by
    intro c
    by_cases hc : (∀ i < n, ∀ j < n, entry c i j = entry c j i) ∧ PSD n (entry c)
    · obtain ⟨a, ha⟩ := svdRoot_exists hc.1 hc.2
      refine ⟨(List.range n).map (fun i => (List.range n).map (a i)), fun _ _ => ?_⟩
      have : toMat n (entry ((List.range n).map (fun i => (List.range n).map (a i)))) = toMat n a := by
        ext i j
        exact entry_map (F := a) i.2 j.2
      unfold IsSvdRoot at ha ⊢
      rw [this]
      exact ha
    · exact ⟨[], fun h1 h2 => absurd ⟨h1, h2⟩ hc⟩
  exact ⟨fun c => (h c).choose, fun c => (h c).choose_spec⟩

end Verif
