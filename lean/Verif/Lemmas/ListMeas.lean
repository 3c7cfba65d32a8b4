/-
Measurable functions with values in lists: a list is measurable in a parameter if its length and each of its
entries are.  Selections made by a sort that only compares are measurable.
-/
import Verif.Py
import Mathlib.MeasureTheory.Constructions.BorelSpace.Order
import Mathlib.MeasureTheory.Constructions.BorelSpace.Real
import Mathlib.MeasureTheory.Group.Arithmetic

namespace Verif

open MeasureTheory

namespace Spec

/-- The result of the sort is determined by the number of the costs and by which of them are smaller than
which: all that a sort that compares costs can use. -/
def ComparisonSort (argsort : List ℝ → List ℕ) : Prop :=
  ∀ cs cs' : List ℝ, cs.length = cs'.length →
    (∀ (i j : ℕ) (a b a' b' : ℝ), cs[i]? = some a → cs[j]? = some b → cs'[i]? = some a' → cs'[j]? = some b' →
      (a < b ↔ a' < b')) → argsort cs = argsort cs'

end Spec

open Spec

section
variable {A α β : Type} [MeasurableSpace A] [MeasurableSpace α] [Inhabited α] [MeasurableSpace β] [Inhabited β]

/-- Lists: the length and the entries are measurable. -/
instance listSpace : MeasurableSpace (List α) :=
  MeasurableSpace.comap (fun l => (l.length, fun i : ℕ => l.getD i default)) inferInstance

theorem meas_list {F : A → List α} (h1 : Measurable fun a => (F a).length)
    (h2 : ∀ i, Measurable fun a => (F a).getD i default) : Measurable F := by
  rw [measurable_comap_iff]
  exact h1.prodMk (measurable_pi_iff.2 h2)

theorem meas_length {F : A → List α} (h : Measurable F) : Measurable fun a => (F a).length := by
  have := (measurable_comap_iff.1 h).fst
  exact this

theorem meas_getD {F : A → List α} (h : Measurable F) (i : ℕ) :
    Measurable fun a => (F a).getD i default := by
  have := (measurable_pi_iff.1 (measurable_comap_iff.1 h).snd) i
  exact this

/-- A function that is measurable on each of countably many measurable pieces. -/
theorem meas_pieces {I γ : Type} [Countable I] [MeasurableSpace I] [MeasurableSingletonClass I]
    [MeasurableSpace γ] {c : A → I} (hc : Measurable c) {F : I → A → γ} (hF : ∀ i, Measurable (F i)) :
    Measurable fun a => F (c a) a := by
  intro s hs
  have : (fun a => F (c a) a) ⁻¹' s = ⋃ i, c ⁻¹' {i} ∩ F i ⁻¹' s := by
    ext a
    simp only [Set.mem_preimage, Set.mem_iUnion, Set.mem_inter_iff, Set.mem_singleton_iff]
    constructor
    · intro h; exact ⟨c a, rfl, h⟩
    · rintro ⟨i, rfl, h⟩; exact h
  rw [this]
  exact MeasurableSet.iUnion fun i => (hc (measurableSet_singleton i)).inter (hF i hs)

theorem meas_getD' {F : A → List α} (h : Measurable F) {k : A → ℕ} (hk : Measurable k) :
    Measurable fun a => (F a).getD (k a) default :=
  meas_pieces (F := fun k a => (F a).getD k default) hk fun k => meas_getD h k

theorem meas_append {F G : A → List α} (hF : Measurable F) (hG : Measurable G) :
    Measurable fun a => F a ++ G a := by
  refine meas_list ?_ fun i => ?_
  · simp only [List.length_append]
    exact (meas_length hF).add (meas_length hG)
  · have : (fun a => (F a ++ G a).getD i default) = fun a =>
        if i < (F a).length then (F a).getD i default else (G a).getD (i - (F a).length) default := by
      funext a
      split
      · rename_i h; simp only [List.getD_eq_getElem?_getD]; rw [List.getElem?_append_left h]
      · rename_i h; simp only [List.getD_eq_getElem?_getD]; rw [List.getElem?_append_right (not_lt.1 h)]
    rw [this]
    refine Measurable.ite ?_ (meas_getD hF i) (meas_getD' hG ?_)
    · exact measurableSet_lt measurable_const (meas_length hF)
    · exact (measurable_from_top (f := fun k : ℕ => i - k)).comp (meas_length hF)

theorem meas_map {F : A → List α} (hF : Measurable F) {Φ : A → α → β}
    (hΦ : Measurable fun p : A × α => Φ p.1 p.2) : Measurable fun a => (F a).map (Φ a) := by
  refine meas_list ?_ fun i => ?_
  · simp only [List.length_map]; exact meas_length hF
  · have : (fun a => ((F a).map (Φ a)).getD i default) = fun a =>
        if i < (F a).length then Φ a ((F a).getD i default) else default := by
      funext a
      split
      · rename_i h
        simp [List.getD_eq_getElem?_getD, h]
      · rename_i h
        simp [List.getD_eq_getElem?_getD, h]
    rw [this]
    refine Measurable.ite ?_ (hΦ.comp (measurable_id.prodMk (meas_getD hF i))) measurable_const
    exact measurableSet_lt measurable_const (meas_length hF)

theorem meas_rangeMap {k : ℕ} {F : ℕ → A → α} (hF : ∀ i, Measurable (F i)) :
    Measurable fun a => (List.range k).map fun i => F i a := by
  refine meas_list (by simp only [List.length_map, List.length_range]; exact measurable_const) fun i => ?_
  by_cases h : i < k
  · have : (fun a => ((List.range k).map fun i => F i a).getD i default) = F i := by
      funext a; simp [List.getD_eq_getElem?_getD, h]
    rw [this]; exact hF _
  · have : (fun a => ((List.range k).map fun i => F i a).getD i default) = fun _ => default := by
      funext a; simp [List.getD_eq_getElem?_getD, h]
    rw [this]; exact measurable_const

/-- Sums over a list. -/
theorem meas_sum {F : A → List α} (hF : Measurable F) {Φ : A → α → ℝ}
    (hΦ : Measurable fun p : A × α => Φ p.1 p.2) : Measurable fun a => ((F a).map (Φ a)).sum := by
  have : (fun a => ((F a).map (Φ a)).sum) = fun a =>
      (fun k a => ∑ i ∈ Finset.range k, Φ a ((F a).getD i default)) (F a).length a := by
    funext a
    simp only
    generalize F a = l
    induction l with
    | nil => simp
    | cons x l ih =>
      rw [List.map_cons, List.sum_cons, ih, List.length_cons, Finset.sum_range_succ']
      simp [add_comm]
  rw [this]
  refine meas_pieces (F := fun k a => ∑ i ∈ Finset.range k, Φ a ((F a).getD i default)) (meas_length hF) fun k => ?_
  exact Finset.measurable_sum _ fun i _ => hΦ.comp (measurable_id.prodMk (meas_getD hF i))

/-- The entries at given positions. -/
theorem meas_takeIdx {F : A → List α} (hF : Measurable F) (idx : List ℕ) :
    Measurable fun a => takeIdx (F a) idx := by
  induction idx with
  | nil => exact measurable_const
  | cons i idx ih =>
    have : (fun a => takeIdx (F a) (i :: idx)) = fun a =>
        if i < (F a).length then [(F a).getD i default] ++ takeIdx (F a) idx else takeIdx (F a) idx := by
      funext a
      split
      · rename_i h
        simp [takeIdx, List.getD_eq_getElem?_getD, h]
      · rename_i h
        simp [takeIdx, h]
    rw [this]
    refine Measurable.ite (measurableSet_lt measurable_const (meas_length hF)) (meas_append ?_ ih) ih
    refine meas_list (by simp only [List.length_singleton]; exact measurable_const) fun j => ?_
    cases j with
    | zero => simpa using meas_getD hF i
    | succ j => simp

/-- A sort that compares: on lists of one length the result depends on finitely many comparisons. -/
theorem meas_sort {srt : List ℝ → List ℕ} (hs : ComparisonSort srt) {F : A → List ℝ} (hF : Measurable F)
    {γ : Type} [MeasurableSpace γ] {G : List ℕ → A → γ} (hG : ∀ o, Measurable (G o)) :
    Measurable fun a => G (srt (F a)) a := by
  classical
  have key : ∀ k : ℕ, ∃ S : (Fin k → Fin k → Prop) → List ℕ, ∀ cs : List ℝ, cs.length = k →
      srt cs = S fun i j => cs.getD i default < cs.getD j default := by
    intro k
    refine ⟨fun m => if h : ∃ cs : List ℝ, cs.length = k ∧
      (fun i j : Fin k => cs.getD i default < cs.getD j default) = m then srt h.choose else [], ?_⟩
    intro cs hk
    have h : ∃ cs' : List ℝ, cs'.length = k ∧ (fun i j : Fin k => cs'.getD i default < cs'.getD j default) =
        fun i j : Fin k => cs.getD i default < cs.getD j default := ⟨cs, hk, rfl⟩
    simp only
    rw [dif_pos h]
    obtain ⟨h1, h2⟩ := h.choose_spec
    generalize h.choose = cs' at h1 h2
    refine hs _ _ (hk.trans h1.symm) ?_
    intro i j a b a' b' ha hb ha' hb'
    have hi := (List.getElem?_eq_some_iff.1 ha).1
    have hj := (List.getElem?_eq_some_iff.1 hb).1
    have := congrFun (congrFun h2 ⟨i, hk ▸ hi⟩) ⟨j, hk ▸ hj⟩
    simp only [List.getD_eq_getElem?_getD, ha, hb, ha', hb', Option.getD_some, eq_iff_iff] at this
    exact this.symm
  choose S hS using key
  have : (fun a => G (srt (F a)) a) = fun a => (fun k a =>
      G (S k fun i j => (F a).getD i default < (F a).getD j default) a) (F a).length a := by
    funext a
    simp only
    rw [← hS _ _ rfl]
  rw [this]
  refine meas_pieces (F := fun k a => G (S k fun i j => (F a).getD i default < (F a).getD j default) a)
    (meas_length hF) fun k => ?_
  refine meas_pieces (c := fun a => fun i j : Fin k => (F a).getD i default < (F a).getD j default)
    (F := fun m a => G (S k m) a) ?_ fun m => hG _
  refine measurable_pi_iff.2 fun i => measurable_pi_iff.2 fun j => ?_
  exact measurableSet_setOfPred.1 (measurableSet_lt (meas_getD hF i) (meas_getD hF j))

/-- The individuals in the first positions of a sort by cost. -/
theorem meas_select {srt : List ℝ → List ℕ} (hs : ComparisonSort srt) {F : A → List α} (hF : Measurable F)
    {h : α → ℝ} (hh : Measurable h) (k : ℤ) :
    Measurable fun a => takeIdx (F a) (sliceTo (srt ((F a).map h)) k) :=
  meas_sort (G := fun o a => takeIdx (F a) (sliceTo o k)) hs
    (meas_map (Φ := fun _ x => h x) hF (hh.comp measurable_snd)) fun _ => meas_takeIdx hF _

end

end Verif
