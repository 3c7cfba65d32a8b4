/-
The populations of a run of `UMDAc` or `PBIL` as a function of the draws: they are measurable, depend on the past
only, and what is selected stays below any level that enough individuals of the first generation are below.
-/
import Verif.Lemmas.ListMeas
import Verif.Lemmas.Fresh
import Verif.Lemmas.Py
import Verif.Model.Base

namespace Verif

open MeasureTheory Spec

/-- What determines the populations: the sort, the cost function, the numbers of selected, elite and sampled
individuals, the learned means and deviations as functions of the selected individuals, and the first
generation and elite. -/
structure PureRun (n : ℕ) where
  srt : List ℝ → List ℕ
  cost : (Fin n → ℝ) → ℝ
  kT : ℤ
  kE : ℤ
  size : ℕ
  mu : List (Fin n → ℝ) → Fin n → ℝ
  sd : List (Fin n → ℝ) → Fin n → ℝ
  g0 : List (Fin n → ℝ)
  l0 : List (Fin n → ℝ)

namespace PureRun
variable {n : ℕ} (p : PureRun n)

/-- The first `k` individuals in the order of the costs. -/
def pick (k : ℤ) (P : List (Fin n → ℝ)) : List (Fin n → ℝ) := takeIdx P (sliceTo (p.srt (P.map p.cost)) k)

/-- Generation and elite before pass `t + 1`. -/
def pops (ω : ℕ → Draws ℝ) : ℕ → List (Fin n → ℝ) × List (Fin n → ℝ)
  | 0 => (p.g0, p.l0)
  | t + 1 =>
    ((List.range p.size).map (fun i j =>
        p.mu (p.pick p.kT ((pops ω t).1 ++ (pops ω t).2)) j +
          p.sd (p.pick p.kT ((pops ω t).1 ++ (pops ω t).2)) j * ω (t + 1) i j),
      p.pick p.kE ((pops ω t).1 ++ (pops ω t).2))

/-- The individuals selected in pass `t + 1`. -/
def sel (ω : ℕ → Draws ℝ) (t : ℕ) : List (Fin n → ℝ) := p.pick p.kT ((p.pops ω t).1 ++ (p.pops ω t).2)

theorem pops_past (ω ω' : ℕ → Draws ℝ) (t : ℕ) (h : ∀ i, 1 ≤ i → i ≤ t → ω i = ω' i) : p.pops ω t = p.pops ω' t := by
  induction t with
  | zero => rfl
  | succ t ih =>
    have := ih fun i h1 hi => h i h1 (by omega)
    simp only [pops, this, h (t + 1) (by omega) le_rfl]

theorem sel_past (ω ω' : ℕ → Draws ℝ) (t : ℕ) (h : ∀ i, 1 ≤ i → i ≤ t → ω i = ω' i) : p.sel ω t = p.sel ω' t := by
  unfold sel; rw [p.pops_past ω ω' t h]

theorem pops_measurable (hs : ComparisonSort p.srt) (hc : Measurable p.cost)
    (hmu : ∀ j, Measurable fun P => p.mu P j) (hsd : ∀ j, Measurable fun P => p.sd P j) (t : ℕ) :
    Measurable (fun ω => (p.pops ω t).1) ∧ Measurable (fun ω => (p.pops ω t).2) := by
  induction t with
  | zero => exact ⟨measurable_const, measurable_const⟩
  | succ t ih =>
    have hP := meas_append ih.1 ih.2
    have hsel : ∀ k, Measurable fun ω => p.pick k ((p.pops ω t).1 ++ (p.pops ω t).2) := fun k =>
      meas_select hs hP hc k
    refine ⟨?_, hsel _⟩
    simp only [pops]
    refine meas_rangeMap fun i => measurable_pi_iff.2 fun j => ?_
    refine ((hmu j).comp (hsel _)).add (((hsd j).comp (hsel _)).mul ?_)
    exact (measurable_pi_apply (j : ℕ)).comp ((measurable_pi_apply i).comp (measurable_pi_apply (t + 1)))

theorem sel_measurable (hs : ComparisonSort p.srt) (hc : Measurable p.cost)
    (hmu : ∀ j, Measurable fun P => p.mu P j) (hsd : ∀ j, Measurable fun P => p.sd P j) (t : ℕ) :
    Measurable fun ω => p.sel ω t :=
  have h := p.pops_measurable hs hc hmu hsd t
  meas_select hs (meas_append h.1 h.2) hc _

/-- The sorted pool. -/
theorem pick_sorted (hs : IsArgsort p.srt) (P : List (Fin n → ℝ)) :
    ∃ W : List (Fin n → ℝ), W.Perm P ∧ W.Pairwise (fun a b => p.cost a ≤ p.cost b) ∧
      ∀ k : ℤ, 0 ≤ k → p.pick k P = W.take k.toNat := by
  obtain ⟨Q, h1, h2, h3, h4⟩ := argsort_pool hs P (P.map p.cost) (by simp)
  have hQ : ∀ q ∈ Q, q.2 = p.cost q.1 := by
    intro q hq
    have := h1.subset hq
    rw [List.zip_map_right, List.mem_map] at this
    obtain ⟨⟨a, b⟩, hab, rfl⟩ := this
    obtain ⟨i, hi, he⟩ := List.mem_iff_getElem.1 hab
    simp only [List.getElem_zip, Prod.mk.injEq] at he
    simp only [Prod.map, id_eq, ← he.1, ← he.2]
  refine ⟨Q.map Prod.fst, ?_, ?_, ?_⟩
  · have := h1.map Prod.fst
    rwa [List.map_fst_zip (by simp)] at this
  · rw [List.pairwise_map]
    refine List.pairwise_iff_getElem.2 fun i j hi hj hij => ?_
    have := (List.pairwise_iff_getElem.1 h2 i j hi hj hij).1
    rw [hQ _ (List.getElem_mem _), hQ _ (List.getElem_mem _)] at this
    simpa [PyCost.lt] using this
  · intro k hk
    unfold pick
    rw [(h4 k).1, ← List.map_take]
    congr 1
    unfold sliceLen
    rw [if_pos hk, ← h3]
    simp

/-- In a sorted list the elements below a level come first. -/
theorem sorted_low {W : List (Fin n → ℝ)} {c : ℝ} (hW : W.Pairwise (fun a b => p.cost a ≤ p.cost b)) {k : ℕ}
    (hk : k ≤ W.countP (fun r => decide (p.cost r ≤ c))) :
    (∀ r ∈ W.take k, p.cost r ≤ c) ∧ k ≤ W.length := by
  refine ⟨?_, hk.trans List.countP_le_length⟩
  induction W generalizing k with
  | nil => simp
  | cons a W ih =>
    cases k with
    | zero => simp
    | succ k =>
      have hp := List.pairwise_cons.1 hW
      rw [List.countP_cons] at hk
      by_cases ha : p.cost a ≤ c
      · simp only [ha, decide_true, if_true] at hk
        intro r hr
        rw [List.take_succ_cons, List.mem_cons] at hr
        rcases hr with rfl | hr
        · exact ha
        · exact ih hp.2 (by omega) r hr
      · exfalso
        simp only [ha, decide_false, Bool.false_eq_true, if_false, add_zero] at hk
        have : 0 < W.countP (fun r => decide (p.cost r ≤ c)) := by omega
        obtain ⟨r, hr, hrc⟩ := List.countP_pos_iff.1 this
        have := hp.1 r hr
        simp only [decide_eq_true_eq] at hrc
        exact ha (this.trans hrc)

/-- As many individuals as are selected have at most the cost `c`; therefore, all selected ones have. -/
theorem pops_low (hs : IsArgsort p.srt) (h0 : 0 ≤ p.kT) (hTE : p.kT ≤ p.kE) {c : ℝ}
    (hc : p.kT.toNat ≤ (p.g0 ++ p.l0).countP (fun r => decide (p.cost r ≤ c))) (ω : ℕ → Draws ℝ) (t : ℕ) :
    p.kT.toNat ≤ ((p.pops ω t).1 ++ (p.pops ω t).2).countP (fun r => decide (p.cost r ≤ c)) := by
  induction t with
  | zero => exact hc
  | succ t ih =>
    obtain ⟨W, h1, h2, h3⟩ := p.pick_sorted hs ((p.pops ω t).1 ++ (p.pops ω t).2)
    have hk : p.kT.toNat ≤ W.countP (fun r => decide (p.cost r ≤ c)) := by rw [h1.countP_eq]; exact ih
    obtain ⟨h4, h5⟩ := p.sorted_low h2 hk
    rw [List.countP_append]
    refine le_add_left ?_
    simp only [pops]
    rw [h3 _ (h0.trans hTE)]
    have hpre : List.Sublist (W.take p.kT.toNat) (W.take p.kE.toNat) :=
      (List.take_prefix_take_left (by omega)).sublist
    refine le_trans (le_of_eq ?_) hpre.countP_le
    rw [List.countP_eq_length.2 (by simpa using h4), List.length_take]
    omega

theorem sel_low (hs : IsArgsort p.srt) (h0 : 0 ≤ p.kT) (hTE : p.kT ≤ p.kE) {c : ℝ}
    (hc : p.kT.toNat ≤ (p.g0 ++ p.l0).countP (fun r => decide (p.cost r ≤ c))) (ω : ℕ → Draws ℝ) (t : ℕ) :
    (∀ r ∈ p.sel ω t, p.cost r ≤ c) ∧ (p.sel ω t).length = p.kT.toNat := by
  have ih := p.pops_low hs h0 hTE hc ω t
  obtain ⟨W, h1, h2, h3⟩ := p.pick_sorted hs ((p.pops ω t).1 ++ (p.pops ω t).2)
  obtain ⟨h4, h5⟩ := p.sorted_low h2 (k := p.kT.toNat) (by rw [h1.countP_eq]; exact ih)
  unfold sel
  rw [h3 _ h0]
  exact ⟨h4, by rw [List.length_take]; exact min_eq_left h5⟩

/-- In pass `t` the first individual is sampled in the box around the target. -/
def hits (target : Fin n → ℝ) (δ : ℝ) (t : ℕ) : Set ((ℕ → Draws ℝ) × Draws ℝ) :=
  {q | ∀ j : Fin n, |p.mu (p.sel q.1 (t - 1)) j + p.sd (p.sel q.1 (t - 1)) j * q.2 0 j - target j| < δ}

theorem hits_measurable (hs : ComparisonSort p.srt) (hc : Measurable p.cost)
    (hmu : ∀ j, Measurable fun P => p.mu P j) (hsd : ∀ j, Measurable fun P => p.sd P j) (target : Fin n → ℝ)
    (δ : ℝ) (t : ℕ) : MeasurableSet (p.hits target δ t) := by
  have hsel : Measurable fun q : (ℕ → Draws ℝ) × Draws ℝ => p.sel q.1 (t - 1) :=
    (p.sel_measurable hs hc hmu hsd (t - 1)).comp measurable_fst
  have : p.hits target δ t = ⋂ j : Fin n, {q : (ℕ → Draws ℝ) × Draws ℝ |
      |p.mu (p.sel q.1 (t - 1)) j + p.sd (p.sel q.1 (t - 1)) j * q.2 0 j - target j| < δ} := by
    ext q; simp [hits]
  rw [this]
  refine MeasurableSet.iInter fun j => measurableSet_lt ?_ measurable_const
  refine continuous_abs.measurable.comp ?_
  refine (((hmu j).comp hsel).add (((hsd j).comp hsel).mul ?_)).sub measurable_const
  exact (measurable_pi_apply (j : ℕ)).comp ((measurable_pi_apply 0).comp measurable_snd)

theorem hits_past (target : Fin n → ℝ) (δ : ℝ) (t : ℕ) (ω ω' : ℕ → Draws ℝ) (x : Draws ℝ)
    (h : ∀ i < t, ω i = ω' i) : (ω, x) ∈ p.hits target δ t ↔ (ω', x) ∈ p.hits target δ t := by
  unfold hits
  simp only [Set.mem_ofPred_eq]
  rw [p.sel_past ω ω' (t - 1) fun i h1 hi => h i (by omega)]

end PureRun

end Verif
