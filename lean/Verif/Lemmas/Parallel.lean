/- Lemmas about `np.array_split`, `Pool.map` and the two ways to evaluate a generation. -/
import Verif.Lemmas.Py
import Mathlib.Algebra.BigOperators.Group.List.Basic
import Mathlib.Algebra.Group.Action.Defs
import Verif.Model.Core

namespace Verif

variable {α β R C : Type}

theorem callRows_append (f : ℕ → R → C) (k : ℕ) (a b : List R) :
    callRows f k (a ++ b) = callRows f k a ++ callRows f (k + a.length) b := by
  simp only [callRows, List.mapIdx_append]
  congr 1
  congr 1
  funext i r
  congr 1
  omega

theorem length_callRows (f : ℕ → R → C) (k : ℕ) (a : List R) :
    (callRows f k a).length = a.length := by simp [callRows]

theorem callRows_getElem? (f : ℕ → R → C) (k : ℕ) (a : List R) (i : ℕ) :
    (callRows f k a)[i]? = a[i]?.map (f (k + i)) := by
  simp [callRows, List.getElem?_mapIdx]

/-- The values stored in an array filled by `apply_along_axis`. -/
def castAll [PyCost C] : List C → List C
  | [] => []
  | c0 :: cs => c0 :: cs.map (PyCost.castLike c0)

theorem castAll_uniform [PyCost C] [UniformCost C] (l : List C) : castAll l = l := by
  cases l with
  | nil => rfl
  | cons c cs =>
    have : (PyCost.castLike c : C → C) = id := by
      funext x; exact UniformCost.cast_eq c x
    simp [castAll, this]

theorem applyAlong_nil [PyCost C] (f : ℕ → R → C) (k : ℕ) :
    applyAlong f k [] = .error .valueError := by simp [applyAlong, callRows]

theorem applyAlong_ok [PyCost C] (f : ℕ → R → C) (k : ℕ) (rows : List R) (h : rows ≠ []) :
    applyAlong f k rows =
      .ok { calls := rows.zip (callRows f k rows), stored := castAll (callRows f k rows) } := by
  unfold applyAlong
  cases hc : callRows f k rows with
  | nil =>
    have := length_callRows f k rows
    rw [hc] at this
    exact absurd (List.length_eq_zero_iff.1 this.symm) h
  | cons c cs => rfl

theorem splitSizes_sum (n k : ℕ) (hk : 0 < k) : (splitSizes n k).sum = n := by
  simp only [splitSizes, List.sum_append, List.sum_replicate, smul_eq_mul]
  have h1 := Nat.mod_lt n hk
  have h2 := Nat.div_add_mod n k
  have h3 : k - n % k + n % k = k := by omega
  calc n % k * (n / k + 1) + (k - n % k) * (n / k)
      = (k - n % k + n % k) * (n / k) + n % k := by ring
    _ = n := by rw [h3, h2]

theorem splitSizes_length (n k : ℕ) (hk : 0 < k) : (splitSizes n k).length = k := by
  have h1 := Nat.mod_lt n hk
  simp only [splitSizes, List.length_append, List.length_replicate]
  omega

theorem splitSizes_pos (n k : ℕ) (hk : 0 < k) (h : k ≤ n) : ∀ m ∈ splitSizes n k, 0 < m := by
  have : 0 < n / k := Nat.div_pos h hk
  intro m hm
  simp only [splitSizes, List.mem_append, List.mem_replicate] at hm
  omega

theorem splitSizes_zero (n k : ℕ) (h : n < k) : 0 ∈ splitSizes n k := by
  simp only [splitSizes, List.mem_append, List.mem_replicate]
  have h1 : n / k = 0 := Nat.div_eq_of_lt h
  have h2 : n % k = n := Nat.mod_eq_of_lt h
  right
  rw [h1, h2]
  omega

theorem cut_length (o : ℕ) (ns : List ℕ) (l : List α) : (cut o ns l).length = ns.length := by
  induction ns generalizing o l with
  | nil => rfl
  | cons n ns ih => simp [cut, ih]

theorem cut_flatten (o : ℕ) (ns : List ℕ) (l : List α) (h : ns.sum = l.length) :
    ((cut o ns l).map Prod.snd).flatten = l := by
  induction ns generalizing o l with
  | nil => simp at h; simp [cut, List.length_eq_zero_iff.1 h.symm]
  | cons n ns ih =>
    simp only [List.sum_cons] at h
    simp only [cut, List.map_cons, List.flatten_cons]
    rw [ih _ _ (by simp; omega), List.take_append_drop]

theorem cut_chunk_length (o : ℕ) (ns : List ℕ) (l : List α) (h : ns.sum = l.length) :
    (cut o ns l).map (fun c => c.2.length) = ns := by
  induction ns generalizing o l with
  | nil => rfl
  | cons n ns ih =>
    simp only [List.sum_cons] at h
    simp only [cut, List.map_cons, List.length_take]
    rw [ih _ _ (by simp; omega)]
    congr 1
    omega

theorem cut_calls (f : ℕ → R → C) (k o : ℕ) (ns : List ℕ) (l : List R) (h : ns.sum = l.length) :
    ((cut o ns l).map (fun c => callRows f (k + c.1) c.2)).flatten = callRows f (k + o) l := by
  induction ns generalizing o l with
  | nil => simp at h; simp [cut, List.length_eq_zero_iff.1 h.symm, callRows]
  | cons n ns ih =>
    simp only [List.sum_cons] at h
    simp only [cut, List.map_cons, List.flatten_cons]
    rw [ih _ _ (by simp; omega)]
    conv_rhs => rw [← List.take_append_drop n l, callRows_append]
    congr 2
    simp
    omega

theorem cut_zip (f : ℕ → R → C) (k o : ℕ) (ns : List ℕ) (l : List R) (h : ns.sum = l.length) :
    ((cut o ns l).map (fun c => c.2.zip (callRows f (k + c.1) c.2))).flatten =
      l.zip (callRows f (k + o) l) := by
  induction ns generalizing o l with
  | nil => simp at h; simp [cut, List.length_eq_zero_iff.1 h.symm, callRows]
  | cons n ns ih =>
    simp only [List.sum_cons] at h
    simp only [cut, List.map_cons, List.flatten_cons]
    rw [ih _ _ (by simp; omega)]
    conv_rhs => rw [← List.take_append_drop n l, callRows_append]
    rw [List.zip_append (by simp [length_callRows])]
    congr 3
    simp
    omega

theorem arraySplit_flatten (l : List α) (k : ℕ) (hk : 0 < k) :
    ((arraySplit l k).map Prod.snd).flatten = l :=
  cut_flatten _ _ _ (splitSizes_sum _ _ hk)

section pool

theorem pool_slots (g : α → β) (xs : List α) (sched : List ℕ) :
    ∀ s : List (Option β), s.length = xs.length →
      let r := sched.foldl (poolWrite g xs) s
      r.length = xs.length ∧
      ∀ i, r[i]? = if i ∈ sched ∧ i < xs.length then xs[i]?.map (fun x => some (g x)) else s[i]? := by
  induction sched with
  | nil => intro s hs; simp [hs]
  | cons j js ih =>
    intro s hs
    simp only [List.foldl_cons]
    cases hx : xs[j]? with
    | none =>
      have hw : poolWrite g xs s j = s := by simp [poolWrite, hx]
      rw [hw]
      have hj : ¬ j < xs.length := by
        intro h; rw [List.getElem?_eq_getElem h] at hx; simp at hx
      obtain ⟨h1, h2⟩ := ih s hs
      refine ⟨h1, fun i => ?_⟩
      rw [h2 i]
      by_cases hi : i = j
      · subst hi; simp [hj]
      · simp [hi]
    | some x =>
      have hw : poolWrite g xs s j = s.set j (some (g x)) := by simp [poolWrite, hx]
      rw [hw]
      obtain ⟨h1, h2⟩ := ih (s.set j (some (g x))) (by simp [hs])
      refine ⟨h1, fun i => ?_⟩
      rw [h2 i]
      by_cases hi : i = j
      · subst hi
        have hlt : i < xs.length := by
          rw [List.getElem?_eq_some_iff] at hx; exact hx.1
        by_cases hm : i ∈ js
        · simp [hm, hlt]
        · simp [hm, hlt, hs]
          rw [List.getElem?_eq_getElem hlt] at hx
          simp only [Option.some.injEq] at hx
          rw [hx]
      · simp [hi, Ne.symm hi]

theorem mapM_some (l : List β) : (l.map some).mapM (id : Option β → Option β) = some l := by
  induction l with
  | nil => rfl
  | cons a l ih => simp [List.mapM_cons, ih]

/-- `Pool.map` returns the results in the order of the arguments, whatever the completion order. -/
theorem poolMap_eq (sched : List ℕ) (g : α → β) (xs : List α)
    (h : ∀ i < xs.length, i ∈ sched) : poolMap sched g xs = some (xs.map g) := by
  unfold poolMap
  obtain ⟨h1, h2⟩ := pool_slots g xs sched (List.replicate xs.length none) (by simp)
  have : sched.foldl (poolWrite g xs) (List.replicate xs.length none) = (xs.map g).map some := by
    apply List.ext_getElem?
    intro i
    rw [h2 i]
    by_cases hi : i < xs.length
    · simp [h i hi, hi]
    · simp [hi]
  rw [this, mapM_some]

end pool

theorem mapM_ok (l : List β) :
    (l.map (Except.ok : β → Except PyErr β)).mapM id = .ok l := by
  induction l with
  | nil => rfl
  | cons a l ih =>
    simp only [List.map_cons, List.mapM_cons, ih, id]
    rfl

theorem mapM_error (l : List (Except PyErr β)) (e : PyErr)
    (h1 : ∀ x ∈ l, ∀ e', x = .error e' → e' = e) (h2 : .error e ∈ l) :
    l.mapM id = .error e := by
  induction l with
  | nil => simp at h2
  | cons a l ih =>
    simp only [List.mapM_cons]
    cases a with
    | error e' =>
      have := h1 (.error e') (by simp) e' rfl
      subst this; rfl
    | ok b =>
      have h2' : Except.error e ∈ l := by simpa using h2
      rw [ih (fun x hx => h1 x (by simp [hx])) h2']
      rfl

/-- Parallel evaluation when every worker gets at least one row. -/
theorem parallelApply_ok [PyCost C] (cpu : ℕ) (sched : List ℕ) (f : ℕ → R → C) (k : ℕ)
    (rows : List R) (hc : 0 < cpu) (hr : cpu ≤ rows.length) (hs : ∀ i < cpu, i ∈ sched) :
    parallelApply cpu sched f k rows =
      .ok { calls := rows.zip (callRows f k rows),
            stored := ((arraySplit rows cpu).map
              (fun c => castAll (callRows f (k + c.1) c.2))).flatten } := by
  unfold parallelApply
  rw [if_neg (by omega)]
  have hlen : (arraySplit rows cpu).length = cpu := by
    simp [arraySplit, cut_length, splitSizes_length _ _ hc]
  rw [poolMap_eq _ _ _ (by rw [hlen]; exact hs)]
  have hsum := splitSizes_sum rows.length cpu hc
  have hmap : (arraySplit rows cpu).map (fun ch : ℕ × List R => applyAlong f (k + ch.1) ch.2) =
      ((arraySplit rows cpu).map (fun ch : ℕ × List R =>
        ({ calls := ch.2.zip (callRows f (k + ch.1) ch.2),
           stored := castAll (callRows f (k + ch.1) ch.2) } : Evaluated R C))).map Except.ok := by
    rw [List.map_map]
    apply List.map_congr_left
    intro ch hch
    rw [applyAlong_ok]
    · rfl
    · intro hnil
      have := cut_chunk_length 0 (splitSizes rows.length cpu) rows hsum
      have hmem : ch.2.length ∈ splitSizes rows.length cpu := by
        rw [← this]
        exact List.mem_map.2 ⟨ch, hch, rfl⟩
      have := splitSizes_pos _ _ hc hr _ hmem
      simp [hnil] at this
  simp only [hmap]
  rw [mapM_ok]
  simp only [List.map_map]
  congr 2
  have := cut_zip f k 0 (splitSizes rows.length cpu) rows hsum
  simpa [arraySplit, Function.comp_def] using this

/-- Parallel evaluation raises `ValueError` when there are more workers than rows. -/
theorem parallelApply_error [PyCost C] (cpu : ℕ) (sched : List ℕ) (f : ℕ → R → C) (k : ℕ)
    (rows : List R) (hr : rows.length < cpu) (hs : ∀ i < cpu, i ∈ sched) :
    parallelApply cpu sched f k rows = .error .valueError := by
  have hc : 0 < cpu := by omega
  unfold parallelApply
  rw [if_neg (by omega)]
  have hlen : (arraySplit rows cpu).length = cpu := by
    simp [arraySplit, cut_length, splitSizes_length _ _ hc]
  rw [poolMap_eq _ _ _ (by rw [hlen]; exact hs)]
  have hsum := splitSizes_sum rows.length cpu hc
  simp only
  rw [mapM_error _ .valueError]
  · intro x hx e' he
    subst he
    obtain ⟨ch, _, hch⟩ := List.mem_map.1 hx
    by_cases hn : ch.2 = []
    · rw [hn, applyAlong_nil] at hch
      simpa using hch.symm
    · rw [applyAlong_ok _ _ _ hn] at hch
      simp at hch
  · have h0 := splitSizes_zero _ _ hr
    rw [← cut_chunk_length 0 (splitSizes rows.length cpu) rows hsum] at h0
    obtain ⟨ch, hch, hz⟩ := List.mem_map.1 h0
    refine List.mem_map.2 ⟨ch, hch, ?_⟩
    rw [List.length_eq_zero_iff.1 hz, applyAlong_nil]

/-- For costs of a single dtype, parallel and sequential evaluation agree. -/
theorem parallelApply_eq_applyAlong [PyCost C] [UniformCost C] (cpu : ℕ) (sched : List ℕ)
    (f : ℕ → R → C) (k : ℕ) (rows : List R) (hc : 0 < cpu) (hr : cpu ≤ rows.length)
    (hs : ∀ i < cpu, i ∈ sched) :
    parallelApply cpu sched f k rows = applyAlong f k rows := by
  rw [parallelApply_ok _ _ _ _ _ hc hr hs, applyAlong_ok _ _ _ (by intro h; simp [h] at hr; omega)]
  simp only [castAll_uniform]
  congr 2
  have := cut_calls f k 0 (splitSizes rows.length cpu) rows (splitSizes_sum _ _ hc)
  simpa [arraySplit] using this

end Verif
