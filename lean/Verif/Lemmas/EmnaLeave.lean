/-
How small the columns of the factor of `EMNA` can be while the individuals are bounded.
-/
import Verif.Props.EmnaSpread
import Verif.Lemmas.ConvLearn

set_option linter.unusedSectionVars false

namespace Verif

open MeasureTheory ProbabilityTheory Spec

section algebra
variable {n : ℕ} {c a : ℕ → ℕ → ℝ}

theorem svdRoot_gram_row (hr : IsSvdRoot n c a) (j : Fin n) :
    ∑ i : Fin n, (∑ k : Fin n, a k i * a k j) ^ 2 = ∑ i : Fin n, c i j ^ 2 := by
  have h := congrFun (congrFun (svdRoot_gram_sq hr) j) j
  simp only [Matrix.mul_apply, Matrix.transpose_apply] at h
  change ∑ i : Fin n, (∑ k : Fin n, a k j * a k i) * (∑ k : Fin n, a k i * a k j) = ∑ i : Fin n, c i j * c i j at h
  rw [show ∑ i : Fin n, c i j ^ 2 = ∑ i : Fin n, c i j * c i j from Finset.sum_congr rfl fun i _ => sq _, ← h]
  refine Finset.sum_congr rfl fun i _ => ?_
  rw [sq]
  congr 1
  exact Finset.sum_congr rfl fun k _ => mul_comm _ _

/-- If the entries of the matrix are bounded and column `j` has an entry that is not small, then column `j` of the root
has an entry that is not small. -/
theorem svdRoot_col_large (hr : IsSvdRoot n c a) {M l : ℝ} (hM : ∀ i < n, ∀ j < n, |c i j| ≤ M) (hl : 0 < l)
    {i j : ℕ} (hi : i < n) (hj : j < n) (hc : l ≤ |c i j|) : ∃ k < n, l ^ 2 ≤ (n ^ 3 * M) * a k j ^ 2 := by
  have hM0 : 0 ≤ M := (abs_nonneg _).trans (hM i hi j hj)
  have hn1 : (1 : ℝ) ≤ n := by exact_mod_cast (by omega : 1 ≤ n)
  set G : Fin n → ℝ := fun i => ∑ k : Fin n, a k i ^ 2 with hG
  have hG0 : ∀ i, 0 ≤ G i := fun i => Finset.sum_nonneg fun k _ => sq_nonneg _
  have hdiag : ∀ i : Fin n, G i ≤ n * M := by
    intro i
    have h1 : G i ^ 2 ≤ (n * M) ^ 2 := by
      have e : G i = ∑ k : Fin n, a k i * a k i := Finset.sum_congr rfl fun k _ => sq _
      calc G i ^ 2 ≤ ∑ i' : Fin n, (∑ k : Fin n, a k i' * a k i) ^ 2 := by
            rw [e]
            exact Finset.single_le_sum (f := fun i' : Fin n => (∑ k : Fin n, a k i' * a k i) ^ 2)
              (fun _ _ => sq_nonneg _) (Finset.mem_univ i)
        _ = ∑ i' : Fin n, c i' i ^ 2 := svdRoot_gram_row hr i
        _ ≤ ∑ _i' : Fin n, M ^ 2 := Finset.sum_le_sum fun i' _ => sq_le_sq' (by linarith [neg_abs_le (c i' i), hM i' i'.2 i i.2]) ((le_abs_self _).trans (hM i' i'.2 i i.2))
        _ = n * M ^ 2 := by simp
        _ ≤ (n * M) ^ 2 := by
            rw [mul_pow]
            exact mul_le_mul_of_nonneg_right (by nlinarith) (sq_nonneg _)
    exact le_of_sq_le_sq h1 (by positivity)
  have hsum : l ^ 2 ≤ n ^ 2 * M * G ⟨j, hj⟩ := by
    calc l ^ 2 ≤ c i j ^ 2 := by rw [← sq_abs (c i j)]; exact pow_le_pow_left₀ hl.le hc 2
      _ ≤ ∑ i' : Fin n, c i' j ^ 2 := Finset.single_le_sum (f := fun i' : Fin n => c i' j ^ 2)
              (fun _ _ => sq_nonneg _) (Finset.mem_univ ⟨i, hi⟩)
      _ = ∑ i' : Fin n, (∑ k : Fin n, a k i' * a k j) ^ 2 := (svdRoot_gram_row hr ⟨j, hj⟩).symm
      _ ≤ ∑ i' : Fin n, G i' * G ⟨j, hj⟩ := Finset.sum_le_sum fun i' _ => Finset.sum_mul_sq_le_sq_mul_sq _ _ _
      _ ≤ ∑ _i' : Fin n, (n * M) * G ⟨j, hj⟩ := Finset.sum_le_sum fun i' _ => mul_le_mul_of_nonneg_right (hdiag i') (hG0 _)
      _ = n ^ 2 * M * G ⟨j, hj⟩ := by simp; ring
  by_contra hcon
  push Not at hcon
  have : n ^ 3 * M * G ⟨j, hj⟩ < n * l ^ 2 := by
    rw [hG, Finset.mul_sum]
    calc ∑ k : Fin n, n ^ 3 * M * a k j ^ 2 < ∑ _k : Fin n, l ^ 2 :=
          Finset.sum_lt_sum_of_nonempty ⟨⟨j, hj⟩, Finset.mem_univ _⟩ fun k _ => hcon k k.2
      _ = n * l ^ 2 := by simp
  have h2 := mul_le_mul_of_nonneg_left hsum (by linarith : (0 : ℝ) ≤ n)
  nlinarith

end algebra

namespace Spec

/-- Draws for the first `n` individuals: individual `k` gets a number above `L` in place `k` and numbers between -1 and
1 in the other places. -/
def spikes (n : ℕ) (L : ℝ) : Set (Draws ℝ) := {z | ∀ k < n, L < z k k ∧ ∀ i < n, i ≠ k → |z k i| ≤ 1}

end Spec

theorem spikes_eq (n : ℕ) (L : ℝ) : spikes n L = Set.pi (Finset.range n : Set ℕ) fun k =>
    Set.pi (Finset.range n : Set ℕ) fun i => if i = k then Set.Ioi L else Set.Icc (-1) 1 := by
  ext z
  simp only [spikes, Set.mem_ofPred_eq, Set.mem_pi, Finset.coe_range, Set.mem_Iio]
  constructor
  · intro h k hk i hi
    split
    · rename_i e; rw [e]; exact (h k hk).1
    · rename_i e; exact abs_le.1 ((h k hk).2 i hi e)
  · intro h k hk
    refine ⟨by simpa using h k hk k hk, fun i hi e => ?_⟩
    have := h k hk i hi
    rw [if_neg e] at this
    exact abs_le.2 this

theorem spike_measurable (k : ℕ) (L : ℝ) (i : ℕ) : MeasurableSet (if i = k then Set.Ioi L else Set.Icc (-1) 1) := by
  split
  · exact measurableSet_Ioi
  · exact measurableSet_Icc

theorem spikes_measurable (n : ℕ) (L : ℝ) : MeasurableSet (spikes n L) := by
  rw [spikes_eq]
  exact MeasurableSet.pi (Finset.countable_toSet _) fun k _ =>
    MeasurableSet.pi (Finset.countable_toSet _) fun i _ => spike_measurable k L i

theorem spikes_positive (n : ℕ) (L : ℝ) : Spec.normalDraws (spikes n L) ≠ 0 := by
  have hpos : ∀ s : Set ℝ, IsOpen s → s.Nonempty → gaussianReal 0 1 s ≠ 0 := by
    intro s ho hn h0
    exact ho.measure_ne_zero volume hn (gaussianReal_absolutelyContinuous' 0 one_ne_zero h0)
  rw [spikes_eq, Spec.normalDraws, Measure.infinitePi_pi _ (fun k _ =>
    MeasurableSet.pi (Finset.countable_toSet _) fun i _ => spike_measurable k L i)]
  refine Finset.prod_ne_zero_iff.2 fun k _ => ?_
  rw [Measure.infinitePi_pi _ (fun i _ => spike_measurable k L i)]
  refine Finset.prod_ne_zero_iff.2 fun i _ => ?_
  split
  · exact hpos _ isOpen_Ioi ⟨L + 1, by simp⟩
  · intro h0
    exact hpos _ isOpen_Ioo ⟨0, by norm_num⟩ (measure_mono_null Set.Ioo_subset_Icc_self h0)

/-- For every column that is not small one of the individuals goes far away. -/
theorem spike_far {n : ℕ} {L δ : ℝ} {z : Draws ℝ} (hz : z ∈ spikes n L) {a : ℕ → ℝ} (hL : (n : ℝ) ≤ L)
    (ha : ∃ k < n, δ ≤ |a k|) : ∃ k < n, (L - n) * δ ≤ |∑ i ∈ Finset.range n, z k i * a i| := by
  obtain ⟨k0, hk0, hδ⟩ := ha
  obtain ⟨k, hk, hmax⟩ := Finset.exists_max_image (Finset.range n) (fun i => |a i|) ⟨k0, Finset.mem_range.2 hk0⟩
  have hk' := Finset.mem_range.1 hk
  refine ⟨k, hk', ?_⟩
  obtain ⟨h1, h2⟩ := hz k hk'
  rw [← Finset.add_sum_erase _ _ hk]
  have hrest : |∑ i ∈ (Finset.range n).erase k, z k i * a i| ≤ n * |a k| := by
    calc |∑ i ∈ (Finset.range n).erase k, z k i * a i| ≤ ∑ i ∈ (Finset.range n).erase k, |z k i * a i| :=
          Finset.abs_sum_le_sum_abs _ _
      _ ≤ ∑ i ∈ (Finset.range n).erase k, |a k| := Finset.sum_le_sum fun i hi => by
          have hi' := Finset.mem_erase.1 hi
          rw [abs_mul]
          have e1 := h2 i (Finset.mem_range.1 hi'.2) hi'.1
          have e2 := hmax i hi'.2
          calc |z k i| * |a i| ≤ 1 * |a k| := mul_le_mul e1 e2 (abs_nonneg _) zero_le_one
            _ = |a k| := one_mul _
      _ ≤ n * |a k| := by
          rw [Finset.sum_const, nsmul_eq_mul]
          refine mul_le_mul_of_nonneg_right ?_ (abs_nonneg _)
          exact_mod_cast (Finset.card_erase_le.trans (by simp))
  have hmain : L * |a k| ≤ |z k k * a k| := by
    rw [abs_mul]
    exact mul_le_mul_of_nonneg_right (h1.le.trans (le_abs_self _)) (abs_nonneg _)
  have htri : |z k k * a k| ≤ |z k k * a k + ∑ i ∈ (Finset.range n).erase k, z k i * a i| +
      |∑ i ∈ (Finset.range n).erase k, z k i * a i| := by
    have := abs_sub (z k k * a k + ∑ i ∈ (Finset.range n).erase k, z k i * a i)
      (∑ i ∈ (Finset.range n).erase k, z k i * a i)
    simpa using this
  have hδk : (L - n) * δ ≤ (L - n) * |a k| :=
    mul_le_mul_of_nonneg_left (hδ.trans (hmax k0 (Finset.mem_range.2 hk0))) (by linarith)
  nlinarith

section trace
variable {R C σ Ω : Type} [PyCost C]
variable {env : Env C} {e : Eda R σ Ω} {f : ℕ → R → C} {ftol : C} {pm : σ} {ρ : Rand Ω}

/-- The individuals of a state have all been evaluated. -/
theorem visited_evaluated (hv : env.Valid) {t : ℕ} {s : St R C σ} (h : Visited env e f ftol pm ρ t s) :
    Aligned s ∧ ∀ r, r ∈ s.gen.rows ∨ r ∈ s.elite.rows → ∃ p ∈ s.log.flatten, p.1 = r := by
  have hcalls : ∀ {par : Bool} {k : ℕ} {rows : List R} {ev}, checkGeneration env par f k rows = .ok ev →
      ∀ r ∈ rows, ∃ p ∈ ev.calls, p.1 = r := by
    intro par k rows ev hc r hr
    have : ev.calls.map Prod.fst = rows := by
      rw [(check_calls hv hc).2, List.map_fst_zip]
      unfold callRows; simp
    rw [← this] at hr
    obtain ⟨p, hp, rfl⟩ := List.mem_map.1 hr
    exact ⟨p, hp, rfl⟩
  refine visited_inv (fun s => Aligned s ∧ ∀ r, r ∈ s.gen.rows ∨ r ∈ s.elite.rows → ∃ p ∈ s.log.flatten, p.1 = r)
    ?_ ?_ h
  · intro s0 h0
    refine ⟨start_aligned hv h0, ?_⟩
    obtain ⟨ev, r0, c0, best, i, hs⟩ := start_ok h0
    have hg : ∀ r ∈ s0.gen.rows, ∃ p ∈ s0.log.flatten, p.1 = r := by
      intro r hr
      obtain ⟨p, hp, e⟩ := hcalls hs.check r hr
      exact ⟨p, by rw [hs.log]; simpa using hp, e⟩
    rintro r (hr | hr)
    · exact hg r hr
    · rw [hs.elite] at hr
      simp only [List.mem_singleton] at hr
      subst hr
      exact hg _ (List.mem_of_getElem? hs.row0)
  · intro noise t s s' b hi _ hst
    refine ⟨step_aligned hv hi.1 hst, ?_⟩
    obtain ⟨s1, noisy, ev, best, i, ind, hs⟩ := step_ok hst
    obtain ⟨_, he1⟩ := truncation_rows hv hi.1 hs.trunc
    rintro r (hr | hr)
    · obtain ⟨p, hp, e⟩ := hcalls hs.check r hr
      exact ⟨p, by rw [hs.log]; simp [hp], e⟩
    · rw [hs.elite] at hr
      obtain ⟨p, hp, e⟩ := hi.2 r (he1 r hr)
      exact ⟨p, by rw [hs.log]; simp only [List.flatten_append, List.mem_append]; exact .inl hp, e⟩

/-- A pass of a run that returns: the selected individuals have been evaluated. -/
theorem minimize_pass_log (hv : env.Valid) {res : EdaResult R C} {s : St R C σ}
    (h : minimize env e f ftol pm ρ = .ok (res, s)) {t : ℕ} (h1 : 1 ≤ t) (h2 : t < res.history.length) :
    ∃ s1 s2 b noise, Visited env e f ftol pm ρ t s1 ∧ e.mkNoise ρ.noise = .ok noise ∧
      step env e f ftol ρ noise t s1 = .ok (s2, b) ∧ s2.log <+: s.log ∧
      (∀ r ∈ s2.gen.rows, ∃ p ∈ s.log.flatten, p.1 = r) ∧
      ∀ s1', truncation env e s1 = .ok s1' → ∀ r ∈ s1'.gen.rows, ∃ p ∈ s.log.flatten, p.1 = r := by
  obtain ⟨s0, noise, h0, hn, hl, hres⟩ := minimize_ok h
  obtain ⟨_, _, _, _, _, hs⟩ := start_ok h0
  obtain ⟨s1, s2, b, hvis, hst, hlen, hpre⟩ := loop_pass noise hn _ 1 t s0 s (.first h0) hl
    (by rw [hs.history]; rfl) (by rw [hs.log]; rfl) h1 (by rw [hres] at h2; exact h2)
  obtain ⟨_, _, ev, _, _, _, hs2⟩ := step_ok hst
  have hsub : ∀ p ∈ s2.log.flatten, p ∈ s.log.flatten := by
    obtain ⟨l, hl⟩ := hpre
    intro p hp
    rw [← hl, List.flatten_append]
    exact List.mem_append_left _ hp
  obtain ⟨ha, hev⟩ := visited_evaluated hv hvis
  refine ⟨s1, s2, b, noise, hvis, hn, hst, hpre, ?_, ?_⟩
  · intro r hr
    have : ev.calls.map Prod.fst = s2.gen.rows := by
      rw [(check_calls hv hs2.check).2, List.map_fst_zip]
      unfold callRows; simp
    rw [← this] at hr
    obtain ⟨p, hp, rfl⟩ := List.mem_map.1 hr
    exact ⟨p, hsub p (by rw [hs2.log]; simp [hp]), rfl⟩
  · intro s1' ht r hr
    obtain ⟨p, hp, e⟩ := hev r ((truncation_rows hv ha ht).1 r hr)
    exact ⟨p, hsub p (by rw [hs2.log]; simp only [List.flatten_append, List.mem_append]; exact .inl hp), e⟩

end trace

end Verif
