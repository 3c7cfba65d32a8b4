/-
Wright-Fisher sampling: the mean of `q` coins whose probability is itself random but independent of them.
-/
import Verif.Props.Hit
import Mathlib.Probability.Independence.InfinitePi
import Mathlib.Logic.Function.DependsOn

set_option linter.unusedSectionVars false

namespace Verif

open MeasureTheory ProbabilityTheory Spec

/-- Independent uniform draws, one for each cell. -/
noncomputable def Spec.cells : Measure (ℕ × ℕ → ℝ) := Measure.infinitePi (fun _ => uniform01)

instance : IsProbabilityMeasure cells := by unfold cells; infer_instance

theorem uniform01_Iio {x : ℝ} (h1 : x ≤ 1) : uniform01 (Set.Iio x) = ENNReal.ofReal x := by
  rw [uniform01, Measure.restrict_apply measurableSet_Iio, Set.inter_comm, Set.Ico_inter_Iio,
    min_eq_right h1, Real.volume_Ico, sub_zero]

/-- A threshold independent of the value compared with it. -/
theorem integral_below {Ω : Type} [MeasurableSpace Ω] {μ : Measure Ω} [IsProbabilityMeasure μ]
    {P V : Ω → ℝ} (hP : Measurable P) (hV : Measurable V) (hi : IndepFun P V μ)
    (h01 : ∀ ω, 0 ≤ P ω ∧ P ω ≤ 1) {G : ℝ → ℝ} (hG0 : ∀ x, 0 ≤ x → 0 ≤ G x)
    (hcdf : ∀ x, 0 ≤ x → x ≤ 1 → μ (V ⁻¹' Set.Iio x) = ENNReal.ofReal (G x)) :
    ∫ ω, (if V ω < P ω then (1 : ℝ) else 0) ∂μ = ∫ ω, G (P ω) ∂μ := by
  have hmap := hi.map_prod_eq_prod_map_map hP.aemeasurable hV.aemeasurable
  have hm : Measurable (fun x : ℝ × ℝ => if x.2 < x.1 then (1 : ℝ) else 0) :=
    Measurable.ite (measurableSet_lt measurable_snd measurable_fst) measurable_const measurable_const
  have hpV : IsProbabilityMeasure (μ.map V) := Measure.isProbabilityMeasure_map hV.aemeasurable
  have hpP : IsProbabilityMeasure (μ.map P) := Measure.isProbabilityMeasure_map hP.aemeasurable
  have hint : Integrable (fun x : ℝ × ℝ => if x.2 < x.1 then (1 : ℝ) else 0)
      ((μ.map P).prod (μ.map V)) := by
    refine Integrable.of_bound hm.aestronglyMeasurable 1 (Filter.Eventually.of_forall fun x => ?_)
    split <;> simp
  calc ∫ ω, (if V ω < P ω then (1 : ℝ) else 0) ∂μ
      = ∫ x, (if x.2 < x.1 then (1 : ℝ) else 0) ∂(μ.map (fun ω => (P ω, V ω))) := by
        rw [integral_map (hP.prodMk hV).aemeasurable hm.aestronglyMeasurable]
    _ = ∫ p, ∫ v, (if v < p then (1 : ℝ) else 0) ∂(μ.map V) ∂(μ.map P) := by
        rw [hmap, integral_prod _ hint]
    _ = ∫ p, (μ.map V).real (Set.Iio p) ∂(μ.map P) := by
        congr 1
        funext p
        have : (fun v : ℝ => if v < p then (1 : ℝ) else 0) = (Set.Iio p).indicator 1 := by
          funext v; simp [Set.indicator]
        rw [this, integral_indicator_one measurableSet_Iio]
    _ = ∫ ω, (μ.map V).real (Set.Iio (P ω)) ∂μ := by
        rw [integral_map hP.aemeasurable]
        refine Measurable.aestronglyMeasurable ?_
        refine Monotone.measurable fun a b hab => ?_
        exact measureReal_mono (Set.Iio_subset_Iio hab)
    _ = ∫ ω, G (P ω) ∂μ := by
        congr 1
        funext ω
        obtain ⟨h0, h1⟩ := h01 ω
        rw [measureReal_def, Measure.map_apply hV measurableSet_Iio, hcdf _ h0 h1,
          ENNReal.toReal_ofReal (hG0 _ h0)]

/-- The cells of the first `t` generations. -/
def early (size t : ℕ) : Finset (ℕ × ℕ) := Finset.range t ×ˢ Finset.range size

theorem cells_indep {size t : ℕ} {P : (ℕ × ℕ → ℝ) → ℝ} (hP : Measurable P)
    (hd : DependsOn P (early size t : Set (ℕ × ℕ))) (T : Finset (ℕ × ℕ)) (hT : ∀ x ∈ T, x.1 = t) :
    IndepFun P (fun u (x : T) => u x) cells := by
  have hI : iIndepFun (fun (x : ℕ × ℕ) (u : ℕ × ℕ → ℝ) => u x) cells :=
    iIndepFun_infinitePi (P := fun _ : ℕ × ℕ => uniform01) (X := fun _ v => v) (fun _ => measurable_id)
  have hdis : Disjoint (early size t) T := by
    rw [Finset.disjoint_left]
    intro x hx hxT
    have := hT x hxT
    simp only [early, Finset.mem_product, Finset.mem_range] at hx
    omega
  have h := hI.indepFun_finset (early size t) T hdis (fun x => measurable_pi_apply x)
  classical
  let ext : (early size t → ℝ) → (ℕ × ℕ → ℝ) := fun v x => if hx : x ∈ early size t then v ⟨x, hx⟩ else 0
  have hext : Measurable ext := by
    refine measurable_pi_lambda _ fun x => ?_
    by_cases hx : x ∈ early size t
    · simp only [ext, hx, dite_true]; exact measurable_pi_apply _
    · simp only [ext, hx, dite_false]; exact measurable_const
  have h2 := h.comp (φ := P ∘ ext) (ψ := id) (hP.comp hext) measurable_id
  have e1 : (P ∘ ext) ∘ (fun u (x : early size t) => u x) = P := by
    funext u
    refine hd fun x hx => ?_
    have hx : x ∈ early size t := hx
    simp [ext, hx]
  rw [e1] at h2
  exact h2

section
variable {size t : ℕ} {P : (ℕ × ℕ → ℝ) → ℝ}

theorem coin_mean (hP : Measurable P) (hd : DependsOn P (early size t : Set (ℕ × ℕ)))
    (h01 : ∀ u, 0 ≤ P u ∧ P u ≤ 1) (i : ℕ) :
    ∫ u, (if u (t, i) < P u then (1 : ℝ) else 0) ∂cells = ∫ u, P u ∂cells := by
  have hm : Measurable (fun v : ({(t, i)} : Finset (ℕ × ℕ)) → ℝ => v ⟨(t, i), by simp⟩) :=
    measurable_pi_apply _
  have h : IndepFun P (fun u => u (t, i)) cells :=
    (cells_indep hP hd {(t, i)} (by simp)).comp (φ := id) measurable_id hm
  refine integral_below (V := fun u => u (t, i)) hP (measurable_pi_apply _) h h01 (G := id)
    (fun x h => h) fun x h0 h1 => ?_
  have : (fun u : ℕ × ℕ → ℝ => u (t, i)) ⁻¹' Set.Iio x =
      Set.pi (({(t, i)} : Finset (ℕ × ℕ)) : Set (ℕ × ℕ)) (fun _ => Set.Iio x) := by
    ext u; simp
  rw [this, cells, Measure.infinitePi_pi _ (fun _ _ => measurableSet_Iio), Finset.prod_singleton,
    uniform01_Iio h1]
  rfl

theorem coin_pair (hP : Measurable P) (hd : DependsOn P (early size t : Set (ℕ × ℕ)))
    (h01 : ∀ u, 0 ≤ P u ∧ P u ≤ 1) {i k : ℕ} (hik : i ≠ k) :
    ∫ u, (if u (t, i) < P u then (1 : ℝ) else 0) * (if u (t, k) < P u then (1 : ℝ) else 0) ∂cells =
      ∫ u, P u ^ 2 ∂cells := by
  have hm : Measurable (fun v : ({(t, i), (t, k)} : Finset (ℕ × ℕ)) → ℝ =>
      max (v ⟨(t, i), by simp⟩) (v ⟨(t, k), by simp⟩)) :=
    (measurable_pi_apply _).max (measurable_pi_apply _)
  have h : IndepFun P (fun u => max (u (t, i)) (u (t, k))) cells :=
    (cells_indep hP hd {(t, i), (t, k)} (by simp)).comp (φ := id) measurable_id hm
  have e : ∀ u : ℕ × ℕ → ℝ,
      (if u (t, i) < P u then (1 : ℝ) else 0) * (if u (t, k) < P u then (1 : ℝ) else 0) =
      if max (u (t, i)) (u (t, k)) < P u then 1 else 0 := by
    intro u
    by_cases h1 : u (t, i) < P u <;> by_cases h2 : u (t, k) < P u <;> simp [h1, h2]
  simp only [e]
  refine integral_below (V := fun u => max (u (t, i)) (u (t, k))) hP
    ((measurable_pi_apply (t, i)).max (measurable_pi_apply (t, k))) h h01 (G := fun x => x ^ 2)
    (fun x h => sq_nonneg x) fun x h0 h1 => ?_
  have : (fun u : ℕ × ℕ → ℝ => max (u (t, i)) (u (t, k))) ⁻¹' Set.Iio x =
      Set.pi (({(t, i), (t, k)} : Finset (ℕ × ℕ)) : Set (ℕ × ℕ)) (fun _ => Set.Iio x) := by
    ext u; simp
  rw [this, cells, Measure.infinitePi_pi _ (fun _ _ => measurableSet_Iio), Finset.prod_pair (by simpa using hik),
    uniform01_Iio h1, ← ENNReal.ofReal_mul h0, sq]

/-- The mean of the coins of the selected individuals. -/
noncomputable def coins (t : ℕ) (idx : List ℕ) (P : (ℕ × ℕ → ℝ) → ℝ) (u : ℕ × ℕ → ℝ) : ℝ :=
  (idx.map (fun i => if u (t, i) < P u then (1 : ℝ) else 0)).sum / (idx.length : ℝ)

theorem coin_measurable (hP : Measurable P) (i : ℕ) :
    Measurable (fun u : ℕ × ℕ → ℝ => if u (t, i) < P u then (1 : ℝ) else 0) :=
  Measurable.ite (measurableSet_lt (measurable_pi_apply _) hP) measurable_const measurable_const

theorem coin_integrable (hP : Measurable P) (i : ℕ) :
    Integrable (fun u : ℕ × ℕ → ℝ => if u (t, i) < P u then (1 : ℝ) else 0) cells :=
  Integrable.of_bound (coin_measurable hP i).aestronglyMeasurable 1
    (Filter.Eventually.of_forall fun x => by split <;> simp)

theorem coins_measurable (hP : Measurable P) (idx : List ℕ) : Measurable (coins t idx P) := by
  unfold coins
  refine Measurable.div_const ?_ _
  induction idx with
  | nil => simp
  | cons i idx ih =>
    simp only [List.map_cons, List.sum_cons]
    exact (coin_measurable hP i).add ih

theorem coins_depends (hd : DependsOn P (early size t : Set (ℕ × ℕ))) {idx : List ℕ}
    (hidx : ∀ i ∈ idx, i < size) : DependsOn (coins t idx P) (early size (t + 1) : Set (ℕ × ℕ)) := by
  intro u v huv
  have h1 : P u = P v := hd fun x hx => huv x (by
    simp only [early, Finset.coe_product, Finset.coe_range, Set.mem_prod, Set.mem_Iio] at hx ⊢
    omega)
  unfold coins
  congr 2
  refine List.map_congr_left fun i hi => ?_
  have h2 : u (t, i) = v (t, i) := huv _ (by
    simp only [early, Finset.coe_product, Finset.coe_range, Set.mem_prod, Set.mem_Iio]
    exact ⟨by omega, hidx i hi⟩)
  rw [h1, h2]

theorem coins_range (idx : List ℕ) (u : ℕ × ℕ → ℝ) :
    ∃ k : ℕ, k ≤ idx.length ∧ coins t idx P u = k / idx.length := by
  have : ∃ k : ℕ, k ≤ idx.length ∧ (idx.map (fun i => if u (t, i) < P u then (1 : ℝ) else 0)).sum = k := by
    induction idx with
    | nil => exact ⟨0, by simp, by simp⟩
    | cons i idx ih =>
      obtain ⟨k, hk, hs⟩ := ih
      rw [List.map_cons, List.sum_cons, hs]
      split
      · exact ⟨k + 1, by simpa using hk, by push_cast; ring⟩
      · exact ⟨k, by simp; omega, by ring⟩
  obtain ⟨k, hk, hs⟩ := this
  exact ⟨k, hk, by rw [coins, hs]⟩

theorem coins_01 (idx : List ℕ) (u : ℕ × ℕ → ℝ) : 0 ≤ coins t idx P u ∧ coins t idx P u ≤ 1 := by
  obtain ⟨k, hk, hs⟩ := coins_range (t := t) (P := P) idx u
  rw [hs]
  exact ⟨by positivity, div_le_one_of_le₀ (by exact_mod_cast hk) (by positivity)⟩

theorem coins_mean (hP : Measurable P) (hd : DependsOn P (early size t : Set (ℕ × ℕ)))
    (h01 : ∀ u, 0 ≤ P u ∧ P u ≤ 1) {idx : List ℕ} (hne : idx ≠ []) :
    ∫ u, coins t idx P u ∂cells = ∫ u, P u ∂cells := by
  have key : ∀ idx : List ℕ,
      ∫ u, (idx.map (fun i => if u (t, i) < P u then (1 : ℝ) else 0)).sum ∂cells =
        idx.length * ∫ u, P u ∂cells ∧
      Integrable (fun u => (idx.map (fun i => if u (t, i) < P u then (1 : ℝ) else 0)).sum) cells := by
    intro idx
    induction idx with
    | nil => simp
    | cons i idx ih =>
      simp only [List.map_cons, List.sum_cons]
      refine ⟨?_, (coin_integrable hP i).add ih.2⟩
      rw [integral_add (coin_integrable hP i) ih.2, ih.1, coin_mean hP hd h01]
      simp only [List.length_cons, Nat.cast_add, Nat.cast_one]
      ring
  have hq : (idx.length : ℝ) ≠ 0 := by
    have := List.length_pos_iff.2 hne
    exact_mod_cast this.ne'
  unfold coins
  rw [integral_div, (key idx).1]
  field_simp

theorem coins_square (hP : Measurable P) (hd : DependsOn P (early size t : Set (ℕ × ℕ)))
    (h01 : ∀ u, 0 ≤ P u ∧ P u ≤ 1) {idx : List ℕ} (hne : idx ≠ []) (hnd : idx.Nodup) :
    ∫ u, coins t idx P u ^ 2 ∂cells =
      (∫ u, P u ∂cells) / idx.length + (1 - 1 / idx.length) * ∫ u, P u ^ 2 ∂cells := by
  set c : ℕ → (ℕ × ℕ → ℝ) → ℝ := fun i u => if u (t, i) < P u then (1 : ℝ) else 0 with hc
  have hcm : ∀ i, Measurable (c i) := fun i => coin_measurable hP i
  have hcb : ∀ i u, 0 ≤ c i u ∧ c i u ≤ 1 := by intro i u; simp only [hc]; split <;> simp
  have hci : ∀ i, Integrable (c i) cells := fun i => coin_integrable hP i
  have hprod : ∀ i k, Integrable (fun u => c i u * c k u) cells := by
    intro i k
    refine Integrable.of_bound ((hcm i).mul (hcm k)).aestronglyMeasurable 1
      (Filter.Eventually.of_forall fun u => ?_)
    obtain ⟨a0, a1⟩ := hcb i u
    obtain ⟨b0, b1⟩ := hcb k u
    rw [Real.norm_of_nonneg (mul_nonneg a0 b0)]
    exact mul_le_one₀ a1 b0 b1
  -- one coin against the sum of others
  have cross : ∀ (l : List ℕ) (i : ℕ), i ∉ l →
      Integrable (fun u => c i u * (l.map (fun k => c k u)).sum) cells ∧
      ∫ u, c i u * (l.map (fun k => c k u)).sum ∂cells = l.length * ∫ u, P u ^ 2 ∂cells := by
    intro l i
    induction l with
    | nil => simp
    | cons k l ih =>
      intro hi
      obtain ⟨h1, h2⟩ := ih (fun h => hi (by simp [h]))
      have e : (fun u => c i u * ((k :: l).map (fun k => c k u)).sum) =
          fun u => c i u * c k u + c i u * (l.map (fun k => c k u)).sum := by
        funext u; rw [List.map_cons, List.sum_cons, mul_add]
      rw [e]
      refine ⟨(hprod i k).add h1, ?_⟩
      rw [integral_add (hprod i k) h1, h2, coin_pair hP hd h01 (fun h => hi (by simp [h]))]
      simp only [List.length_cons, Nat.cast_add, Nat.cast_one]
      ring
  have main : ∀ l : List ℕ, l.Nodup →
      Integrable (fun u => (l.map (fun k => c k u)).sum ^ 2) cells ∧
      ∫ u, (l.map (fun k => c k u)).sum ^ 2 ∂cells =
        l.length * ∫ u, P u ∂cells + l.length * (l.length - 1) * ∫ u, P u ^ 2 ∂cells := by
    intro l
    induction l with
    | nil => simp
    | cons i l ih =>
      intro hn
      obtain ⟨hi, hn⟩ := List.nodup_cons.1 hn
      obtain ⟨h1, h2⟩ := ih hn
      obtain ⟨x1, x2⟩ := cross l i hi
      have e : (fun u => ((i :: l).map (fun k => c k u)).sum ^ 2) =
          fun u => c i u + (2 * (c i u * (l.map (fun k => c k u)).sum) +
            (l.map (fun k => c k u)).sum ^ 2) := by
        funext u
        rw [List.map_cons, List.sum_cons]
        have : c i u * c i u = c i u := by simp only [hc]; split <;> simp
        linear_combination this
      rw [e]
      have hx : Integrable (fun u => 2 * (c i u * (l.map (fun k => c k u)).sum) +
          (l.map (fun k => c k u)).sum ^ 2) cells := (x1.const_mul 2).add h1
      refine ⟨(hci i).add hx, ?_⟩
      rw [integral_add (hci i) hx, integral_add (x1.const_mul 2) h1, integral_const_mul, x2, h2,
        coin_mean hP hd h01]
      simp only [List.length_cons, Nat.cast_add, Nat.cast_one]
      ring
  have hq : (idx.length : ℝ) ≠ 0 := by
    have := List.length_pos_iff.2 hne
    exact_mod_cast this.ne'
  have e : (fun u => coins t idx P u ^ 2) =
      fun u => (idx.map (fun k => c k u)).sum ^ 2 / (idx.length : ℝ) ^ 2 := by
    funext u; rw [coins, div_pow]
  rw [e, integral_div, (main idx hnd).2]
  field_simp

/-- Heterozygosity: the expected variance of a coin decreases by the factor `1 - 1 / q`. -/
theorem coins_var (hP : Measurable P) (hd : DependsOn P (early size t : Set (ℕ × ℕ)))
    (h01 : ∀ u, 0 ≤ P u ∧ P u ≤ 1) {idx : List ℕ} (hne : idx ≠ []) (hnd : idx.Nodup) :
    ∫ u, coins t idx P u * (1 - coins t idx P u) ∂cells =
      (1 - 1 / idx.length) * ∫ u, P u * (1 - P u) ∂cells := by
  have bnd : ∀ {Q : (ℕ × ℕ → ℝ) → ℝ}, Measurable Q → (∀ u, 0 ≤ Q u ∧ Q u ≤ 1) →
      Integrable Q cells ∧ Integrable (fun u => Q u ^ 2) cells := by
    intro Q hQ h
    refine ⟨Integrable.of_bound hQ.aestronglyMeasurable 1 (Filter.Eventually.of_forall fun u => ?_),
      Integrable.of_bound (hQ.pow_const 2).aestronglyMeasurable 1
        (Filter.Eventually.of_forall fun u => ?_)⟩
    · rw [Real.norm_of_nonneg (h u).1]; exact (h u).2
    · rw [Real.norm_of_nonneg (sq_nonneg _)]; exact pow_le_one₀ (h u).1 (h u).2
  obtain ⟨a1, a2⟩ := bnd (coins_measurable (t := t) hP idx) (coins_01 idx)
  obtain ⟨b1, b2⟩ := bnd hP h01
  have e1 : (fun u => coins t idx P u * (1 - coins t idx P u)) =
      fun u => coins t idx P u - coins t idx P u ^ 2 := by funext u; ring
  have e2 : (fun u => P u * (1 - P u)) = fun u => P u - P u ^ 2 := by funext u; ring
  rw [e1, e2, integral_sub a1 a2, integral_sub b1 b2, coins_mean hP hd h01 hne, coins_square hP hd h01 hne hnd]
  ring

end

end Verif
