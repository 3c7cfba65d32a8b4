/- Lemmas about the Python / numpy primitives of `Verif/Py.lean`. -/
import Verif.Py
import Mathlib.Data.List.Induction

namespace Verif

section lists
variable {α β : Type}

theorem takeIdx_append (l : List α) (a b : List ℕ) :
    takeIdx l (a ++ b) = takeIdx l a ++ takeIdx l b := by
  simp [takeIdx, List.filterMap_append]

theorem takeIdx_map (g : α → β) (l : List α) (idx : List ℕ) :
    takeIdx (l.map g) idx = (takeIdx l idx).map g := by
  simp only [takeIdx, List.map_filterMap]
  congr 1
  funext i
  simp

theorem takeIdx_range (l : List α) : takeIdx l (List.range l.length) = l := by
  induction l using List.reverseRecOn with
  | nil => simp [takeIdx]
  | append_singleton l a ih =>
    rw [List.length_append, List.length_singleton, List.range_succ, takeIdx_append]
    have h1 : takeIdx (l ++ [a]) (List.range l.length) = takeIdx l (List.range l.length) := by
      unfold takeIdx
      apply List.filterMap_congr
      intro i hi
      rw [List.mem_range] at hi
      simp [List.getElem?_append_left hi]
    rw [h1, ih]
    simp [takeIdx]

theorem length_takeIdx (l : List α) (idx : List ℕ) (h : ∀ i ∈ idx, i < l.length) :
    (takeIdx l idx).length = idx.length := by
  induction idx with
  | nil => simp [takeIdx]
  | cons i is ih =>
    have hi := h i (by simp)
    have := ih (fun j hj => h j (by simp [hj]))
    simp only [takeIdx] at this ⊢
    simp [List.getElem?_eq_getElem hi, this]

theorem takeIdx_take (l : List α) (idx : List ℕ) (h : ∀ i ∈ idx, i < l.length) (n : ℕ) :
    takeIdx l (idx.take n) = (takeIdx l idx).take n := by
  induction idx generalizing n with
  | nil => simp [takeIdx]
  | cons i is ih =>
    cases n with
    | zero => simp [takeIdx]
    | succ n =>
      have hi := h i (by simp)
      have := ih (fun j hj => h j (by simp [hj])) n
      simp only [takeIdx] at this ⊢
      simp [List.getElem?_eq_getElem hi, this]

theorem mem_of_mem_takeIdx {l : List α} {idx : List ℕ} {a : α} (h : a ∈ takeIdx l idx) :
    a ∈ l := by
  simp only [takeIdx, List.mem_filterMap] at h
  obtain ⟨i, _, hi⟩ := h
  exact List.mem_of_getElem? hi

/-- Number of elements that the slice `[:k]` keeps of `n` elements. -/
def sliceLen (n : ℕ) (k : ℤ) : ℕ := if 0 ≤ k then min k.toNat n else n - (-k).toNat

theorem sliceTo_eq_take (l : List α) (k : ℤ) : sliceTo l k = l.take (sliceLen l.length k) := by
  unfold sliceTo sliceLen
  split
  · rw [← List.take_eq_take_min]
  · rfl

theorem length_sliceTo (l : List α) (k : ℤ) : (sliceTo l k).length = sliceLen l.length k := by
  rw [sliceTo_eq_take, List.length_take]
  unfold sliceLen
  split <;> omega

end lists

section costs
variable {C : Type} [PyCost C]

open PyCost

theorem lt_irrefl' [LawfulCost C] (a : C) : lt a a = false := by
  by_contra h
  have h : lt a a = true := by simpa using h
  have := LawfulCost.asymm a a h
  simp [h] at this

theorem lt_trans' [LawfulCost C] {a b c : C} (h1 : lt a b = true) (h2 : lt b c = true) :
    lt a c = true := by
  rcases LawfulCost.cotrans a c b (LawfulCost.lt_num _ _ h2).2 h1 with h | h
  · exact h
  · have := LawfulCost.asymm _ _ h2
    simp [h] at this

theorem foldMin_spec [LawfulCost C] (cs : List C) : ∀ c : C,
    let r := cs.foldl (fun b x => if lt x b then x else b) c
    (r = c ∨ r ∈ cs) ∧ lt c r = false ∧ (∀ x ∈ cs, lt x r = false) ∧ (¬ IsNum c → r = c) ∧
      (IsNum c → IsNum r) := by
  induction cs with
  | nil => intro c; simp [lt_irrefl']
  | cons x xs ih =>
    intro c
    simp only [List.foldl_cons]
    by_cases hx : lt x c = true
    · rw [if_pos hx]
      obtain ⟨h1, h2, h3, h4, h5⟩ := ih x
      refine ⟨?_, ?_, ?_, ?_, ?_⟩
      · rcases h1 with h | h
        · right; rw [h]; simp
        · right; simp [h]
      · by_contra hc
        have := lt_trans' hx (Bool.eq_true_of_not_eq_false hc)
        simp [this] at h2
      · intro y hy
        rcases List.mem_cons.1 hy with h | h
        · rw [h]; exact h2
        · exact h3 y h
      · intro hn; exact absurd (LawfulCost.lt_num _ _ hx).2 hn
      · intro _; exact h5 (LawfulCost.lt_num _ _ hx).1
    · rw [if_neg hx]
      obtain ⟨h1, h2, h3, h4, h5⟩ := ih c
      refine ⟨?_, h2, ?_, h4, h5⟩
      · rcases h1 with h | h
        · left; exact h
        · right; simp [h]
      · intro y hy
        rcases List.mem_cons.1 hy with h | h
        · subst h
          by_contra hc
          replace hc := Bool.eq_true_of_not_eq_false hc
          by_cases hn : IsNum c
          · rcases LawfulCost.cotrans _ c _ hn hc with h' | h'
            · exact hx h'
            · simp [h'] at h2
          · have := h4 hn
            rw [this] at hc
            exact hx hc
        · exact h3 y h

theorem pyMin_mem [LawfulCost C] {ev : List C} {b : C} (h : pyMin ev = some b) : b ∈ ev := by
  cases ev with
  | nil => simp [pyMin] at h
  | cons c cs =>
    simp only [pyMin, Option.some.injEq] at h
    have := (foldMin_spec cs c).1
    rw [h] at this
    rcases this with h | h
    · rw [h]; simp
    · simp [h]

theorem pyMin_le [LawfulCost C] {ev : List C} {b : C} (h : pyMin ev = some b) :
    ∀ x ∈ ev, lt x b = false := by
  cases ev with
  | nil => simp [pyMin] at h
  | cons c cs =>
    simp only [pyMin, Option.some.injEq] at h
    obtain ⟨_, h2, h3, _⟩ := foldMin_spec cs c
    rw [h] at h2 h3
    intro x hx
    rcases List.mem_cons.1 hx with h | h
    · rw [h]; exact h2
    · exact h3 x h

/-- The builtin `min` is NaN exactly when the first element is NaN. -/
theorem pyMin_num_iff [LawfulCost C] {c : C} {cs : List C} {b : C}
    (h : pyMin (c :: cs) = some b) : IsNum b ↔ IsNum c := by
  simp only [pyMin, Option.some.injEq] at h
  obtain ⟨_, _, _, h4, h5⟩ := foldMin_spec cs c
  rw [h] at h4 h5
  constructor
  · intro hb
    by_contra hc
    rw [h4 hc] at hb
    exact hc hb
  · exact h5

theorem pyMin_isSome {ev : List C} (h : ev ≠ []) : ∃ b, pyMin ev = some b := by
  cases ev with
  | nil => exact absurd rfl h
  | cons c cs => exact ⟨_, rfl⟩

theorem whereFirst_some {ev : List C} {b : C} {i : ℕ} (h : whereFirst ev b = some i) :
    ∃ c, ev[i]? = some c ∧ eq c b = true := by
  unfold whereFirst at h
  rw [List.findIdx?_eq_some_iff_getElem] at h
  obtain ⟨hi, h1, _⟩ := h
  exact ⟨ev[i], by simp [hi], h1⟩

theorem whereFirst_first {ev : List C} {b : C} {i : ℕ} (h : whereFirst ev b = some i) :
    ∀ j < i, ∀ c, ev[j]? = some c → eq c b = false := by
  unfold whereFirst at h
  rw [List.findIdx?_eq_some_iff_getElem] at h
  obtain ⟨hi, _, h2⟩ := h
  intro j hj c hc
  have := h2 j hj
  have hjl : j < ev.length := by omega
  rw [List.getElem?_eq_getElem hjl] at hc
  simp only [Option.some.injEq] at hc
  rw [hc] at this
  simpa using this

theorem whereFirst_isSome {ev : List C} {b : C} (hb : b ∈ ev) (hn : IsNum b) :
    ∃ i, whereFirst ev b = some i := by
  cases h : whereFirst ev b with
  | some i => exact ⟨i, rfl⟩
  | none =>
    unfold whereFirst at h
    rw [List.findIdx?_eq_none_iff] at h
    have := h b hb
    rw [hn] at this
    simp at this

end costs

section argsort
variable {C α : Type} [PyCost C]

theorem argsort_valid {as : List C → List ℕ} (h : IsArgsort as) (l : List C) :
    ∀ i ∈ as l, i < l.length := by
  intro i hi
  have := (h.perm l).mem_iff.1 hi
  simpa using this

/-- The whole pool of (item, cost) pairs in the order chosen by `argsort`. -/
theorem argsort_pool {as : List C → List ℕ} (h : IsArgsort as) (xs : List α) (l : List C)
    (hl : xs.length = l.length) :
    ∃ P : List (α × C), P.Perm (xs.zip l) ∧ P.Pairwise (fun a b => LeNanLast a.2 b.2) ∧
      P.length = l.length ∧
      ∀ k : ℤ, takeIdx xs (sliceTo (as l) k) = (P.take (sliceLen l.length k)).map Prod.fst ∧
        takeIdx l (sliceTo (as l) k) = (P.take (sliceLen l.length k)).map Prod.snd := by
  have hz1 : (xs.zip l).map Prod.fst = xs := List.map_fst_zip (by omega)
  have hz2 : (xs.zip l).map Prod.snd = l := List.map_snd_zip (by omega)
  have hzl : (xs.zip l).length = l.length := by simp [hl]
  have hv := argsort_valid h l
  have hlen : (as l).length = l.length := by simpa using (h.perm l).length_eq
  refine ⟨takeIdx (xs.zip l) (as l), ?_, ?_, ?_, ?_⟩
  · have := (h.perm l).filterMap (fun i => (xs.zip l)[i]?)
    have h2 := takeIdx_range (xs.zip l)
    rw [hzl] at h2
    have h3 : (takeIdx (xs.zip l) (as l)).Perm (takeIdx (xs.zip l) (List.range l.length)) := this
    rw [h2] at h3
    exact h3
  · unfold takeIdx
    rw [List.pairwise_filterMap]
    refine (h.sorted l).imp ?_
    intro i j hij a ha b hb
    apply hij
    · rw [← hz2]; simp only [List.getElem?_map, ha, Option.map_some]
    · rw [← hz2]; simp only [List.getElem?_map, hb, Option.map_some]
  · rw [length_takeIdx _ _ (fun i hi => by rw [hzl]; exact hv i hi), hlen]
  · intro k
    have hs : sliceTo (as l) k = (as l).take (sliceLen l.length k) := by
      rw [sliceTo_eq_take, hlen]
    rw [hs, ← takeIdx_take _ _ (fun i hi => by rw [hzl]; exact hv i hi)]
    constructor
    · rw [← takeIdx_map, hz1]
    · rw [← takeIdx_map, hz2]

end argsort

end Verif
