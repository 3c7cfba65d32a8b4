/-
Lemmas on tables with labelled columns, and on runs of algorithms that differ only in models that never
occur.
-/
import Verif.Spec.Columns
import Verif.Lemmas.Archive
import Verif.Lemmas.Net

namespace Verif

open Spec

section tables

variable {L V : Type} [DecidableEq L]

theorem idxOf?_eq (cols : List L) (l : L) :
    cols.idxOf? l = if l ∈ cols then some (cols.idxOf l) else none := by
  split
  · rename_i h
    exact idxOf?_mem h
  · rename_i h
    exact List.idxOf?_eq_none_iff.2 h

theorem mapM_idxOf (cols labels : List L) : labels.mapM (fun l => cols.idxOf? l) =
    if ∀ l ∈ labels, l ∈ cols then some (labels.map (fun l => cols.idxOf l)) else none := by
  induction labels with
  | nil => simp
  | cons a as ih =>
    rw [List.mapM_cons, ih, idxOf?_eq]
    by_cases ha : a ∈ cols
    · by_cases has : ∀ l ∈ as, l ∈ cols
      · rw [if_pos has, if_pos ha, if_pos (show ∀ l ∈ a :: as, l ∈ cols from
          List.forall_mem_cons.2 ⟨ha, has⟩)]
        rfl
      · rw [if_neg has, if_neg (show ¬ ∀ l ∈ a :: as, l ∈ cols from
          fun h => has (fun l hl => h l (by simp [hl]))), if_pos ha]
        rfl
    · rw [if_neg (show ¬ ∀ l ∈ a :: as, l ∈ cols from fun h => ha (h a (by simp))), if_neg ha]
      rfl

/-- The value of variable `l` in row `i`. -/
def cell (d : Frame L V) (i : ℕ) (l : L) : Option V :=
  d.rows[i]?.bind (fun r => r[d.cols.idxOf l]?)

theorem idxOf_of_getElem? {cols : List L} (h : cols.Nodup) {k : ℕ} {l : L} (hk : cols[k]? = some l) :
    cols.idxOf l = k := by
  obtain ⟨hlt, hl⟩ := List.getElem?_eq_some_iff.1 hk
  subst hl
  exact h.idxOf_getElem k hlt

theorem cell_iff {d : Frame L V} (h : Table d) {i : ℕ} {l : L} (hl : l ∈ d.cols) {x : V} :
    cell d i l = some x ↔ ValueAt d i l x := by
  unfold cell ValueAt
  constructor
  · intro hx
    obtain ⟨r, hr, hx⟩ := Option.bind_eq_some_iff.1 hx
    exact ⟨_, r, List.getElem?_idxOf hl, hr, hx⟩
  · rintro ⟨k, r, hk, hr, hx⟩
    rw [hr, Option.bind_some, idxOf_of_getElem? h.labels hk]
    exact hx

theorem cell_same {d d' : Frame L V} (h : SameTable d d') {l : L} (hl : l ∈ d.cols) (i : ℕ) :
    cell d i l = cell d' i l := by
  ext x
  rw [cell_iff h.left hl, cell_iff h.right ((h.labels l).1 hl)]
  exact h.values i l x

theorem map_eq_range {α β : Type} (l : List α) (g : α → β) (g' : ℕ → β)
    (h : ∀ (i : ℕ) a, l[i]? = some a → g a = g' i) : l.map g = (List.range l.length).map g' := by
  apply List.ext_getElem?
  intro i
  rw [List.getElem?_map, List.getElem?_map]
  rcases lt_or_ge i l.length with hi | hi
  · rw [List.getElem?_eq_getElem hi, List.getElem?_range hi, Option.map_some, Option.map_some,
      h i _ (List.getElem?_eq_getElem hi)]
  · rw [List.getElem?_eq_none hi, List.getElem?_eq_none (by simpa using hi)]
    rfl

theorem pick_eq (d : Frame L V) (labels : List L) : d.pick labels =
    if ∀ l ∈ labels, l ∈ d.cols then
      .ok ((List.range d.rows.length).map (fun i => labels.filterMap (cell d i)))
    else .error (.keyError "column") := by
  unfold Frame.pick
  rw [mapM_idxOf]
  split
  · rename_i h
    split at h
    · cases h
    · rename_i h'; rw [if_neg h']
  · rename_i idx h
    split at h
    · rename_i h'
      rw [if_pos h']
      cases h
      congr 1
      refine map_eq_range _ _ _ ?_
      intro i r hr
      rw [List.filterMap_map]
      apply List.filterMap_congr
      intro l _
      unfold cell
      rw [hr]
      rfl
    · cases h

theorem filterMap_all {α β : Type} {g : α → Option β} {l : List α} (h : ∀ a ∈ l, ∃ x, g a = some x) :
    (l.filterMap g).length = l.length ∧ ∀ j : ℕ, (l.filterMap g)[j]? = l[j]?.bind g := by
  induction l with
  | nil => simp
  | cons a as ih =>
    obtain ⟨x, hx⟩ := h a (by simp)
    obtain ⟨h1, h2⟩ := ih (fun b hb => h b (by simp [hb]))
    rw [List.filterMap_cons_some hx]
    refine ⟨by simp [h1], ?_⟩
    intro j
    cases j with
    | zero => simp [hx]
    | succ j => simpa using h2 j

theorem cell_some {d : Frame L V} (ht : Table d) {i : ℕ} (hi : i < d.rows.length) {l : L}
    (hl : l ∈ d.cols) : ∃ x, cell d i l = some x := by
  unfold cell
  rw [List.getElem?_eq_getElem hi, Option.bind_some]
  have h1 := ht.rect _ (List.getElem_mem hi)
  have h2 : d.cols.idxOf l < d.cols.length := List.idxOf_lt_length_iff.2 hl
  exact ⟨_, List.getElem?_eq_getElem (by omega)⟩

/-- The picked columns form a table with the same values. -/
theorem pick_table {d : Frame L V} (ht : Table d) {vars : List L} (hn : vars.Nodup)
    (hall : ∀ l ∈ vars, l ∈ d.cols) {rows : List (List V)} (h : d.pick vars = .ok rows) :
    rows.length = d.rows.length ∧ Table ⟨vars, rows⟩ ∧
    ∀ i l x, ValueAt ⟨vars, rows⟩ i l x ↔ l ∈ vars ∧ ValueAt d i l x := by
  rw [pick_eq, if_pos hall] at h
  obtain rfl := Except.ok.inj h
  have hfm : ∀ i < d.rows.length, (vars.filterMap (cell d i)).length = vars.length ∧
      ∀ j : ℕ, (vars.filterMap (cell d i))[j]? = vars[j]?.bind (cell d i) := by
    intro i hi
    exact filterMap_all (fun l hl => cell_some ht hi (hall l hl))
  refine ⟨by simp, ⟨hn, ?_⟩, ?_⟩
  · intro r hr
    obtain ⟨i, hi, rfl⟩ := List.mem_map.1 hr
    exact (hfm i (List.mem_range.1 hi)).1
  · intro i l x
    constructor
    · rintro ⟨k, r, hk, hr, hx⟩
      simp only at hk hr
      rw [List.getElem?_map] at hr
      obtain ⟨i', hi', rfl⟩ := Option.map_eq_some_iff.1 hr
      have hlt : i < d.rows.length := by
        have := (List.getElem?_eq_some_iff.1 hi').1
        simpa using this
      rw [List.getElem?_range hlt] at hi'
      obtain rfl := Option.some.inj hi'
      rw [(hfm i hlt).2, hk, Option.bind_some] at hx
      have hl := List.mem_of_getElem? hk
      exact ⟨hl, (cell_iff ht (hall l hl)).1 hx⟩
    · rintro ⟨hl, hv⟩
      have hlt : i < d.rows.length := by
        obtain ⟨_, r, _, hr, _⟩ := hv
        exact (List.getElem?_eq_some_iff.1 hr).1
      refine ⟨vars.idxOf l, vars.filterMap (cell d i), List.getElem?_idxOf hl, ?_, ?_⟩
      · simp [List.getElem?_range hlt]
      · rw [(hfm i hlt).2, List.getElem?_idxOf hl, Option.bind_some]
        exact (cell_iff ht (hall l hl)).2 hv

theorem pick_same {d d' : Frame L V} (h : SameTable d d') (labels : List L) :
    d.pick labels = d'.pick labels := by
  rw [pick_eq, pick_eq, h.rows]
  by_cases hl : ∀ l ∈ labels, l ∈ d.cols
  · rw [if_pos hl, if_pos (fun l hm => (h.labels l).1 (hl l hm))]
    congr 1
    apply List.map_congr_left
    intro i _
    apply List.filterMap_congr
    intro l hm
    exact cell_same h (hl l hm) i
  · rw [if_neg hl, if_neg (fun hh => hl (fun l hm => (h.labels l).2 (hh l hm)))]

theorem select_eq [Zero V] (d : Frame L V) (labels : List L) : d.select labels =
    if ∀ l ∈ labels, l ∈ d.cols then
      .ok { dt := .float, cols := labels.length
            rows := (List.range d.rows.length).map (fun i => labels.map (fun l => (cell d i l).getD 0)) }
    else .error (.keyError "column") := by
  unfold Frame.select
  rw [mapM_idxOf]
  split
  · rename_i h
    split at h
    · cases h
    · rename_i h'; rw [if_neg h']
  · rename_i idx h
    split at h
    · rename_i h'
      rw [if_pos h']
      cases h
      congr 2
      refine map_eq_range _ _ _ ?_
      intro i r hr
      rw [List.map_map]
      apply List.map_congr_left
      intro l _
      unfold cell
      rw [hr]
      simp [List.getD]
    · cases h

theorem select_same [Zero V] {d d' : Frame L V} (h : SameTable d d') (labels : List L) :
    d.select labels = d'.select labels := by
  rw [select_eq, select_eq, h.rows]
  by_cases hl : ∀ l ∈ labels, l ∈ d.cols
  · rw [if_pos hl, if_pos (fun l hm => (h.labels l).1 (hl l hm))]
    congr 2
    apply List.map_congr_left
    intro i _
    apply List.map_congr_left
    intro l hm
    rw [cell_same h (hl l hm) i]
  · rw [if_neg hl, if_neg (fun hh => hl (fun l hm => (h.labels l).2 (hh l hm)))]

end tables

/-! ### Runs of algorithms that agree on the models that occur -/

section congr

variable {R C σ Ω : Type} [PyCost C] {env : Env C} {e : Eda R σ Ω} {f : ℕ → R → C} {ftol : C}
  {ρ : Rand Ω} {Inv : σ → Prop} {u : σ → Gen R → Gen R → Ω → Except PyErr σ}
  {sm : σ → Ω → Except PyErr (Gen R)}

theorem step_congr (hu : ∀ m g el ω, Inv m → u m g el ω = e.updatePm m g el ω)
    (hi : ∀ m g el ω m', Inv m → e.updatePm m g el ω = .ok m' → Inv m')
    (hs : ∀ m ω, Inv m → sm m ω = e.sample m ω) {N : Gen R → Except PyErr (Gen R)} {t : ℕ}
    {s : St R C σ} (h : Inv s.pm) :
    step env { e with updatePm := u, sample := sm } f ftol ρ N t s = step env e f ftol ρ N t s ∧
    ∀ s' b, step env e f ftol ρ N t s = .ok (s', b) → Inv s'.pm := by
  have htr : truncation env { e with updatePm := u, sample := sm } s = truncation env e s := rfl
  have hpm : ∀ s1, truncation env e s = .ok s1 → s1.pm = s.pm := by
    intro s1 h1
    unfold truncation at h1
    split at h1
    · cases h1
    · cases h1; rfl
  unfold step
  rw [htr]
  rcases h1 : truncation env e s with err | s1
  · exact ⟨rfl, by intro s' b hh; cases hh⟩
  have h1' : Inv s1.pm := by rw [hpm s1 h1]; exact h
  simp only
  rcases N s1.gen with err | noisy
  · exact ⟨rfl, by intro s' b hh; cases hh⟩
  simp only
  rw [hu _ _ _ _ h1']
  rcases h2 : e.updatePm s1.pm noisy s1.elite (ρ.learn t) with err | pm
  · exact ⟨rfl, by intro s' b hh; cases hh⟩
  have h2' := hi _ _ _ _ _ h1' h2
  simp only
  rw [hs _ _ h2']
  refine ⟨rfl, ?_⟩
  intro s' b hh
  split at hh
  · cases hh
  split at hh
  · cases hh
  split at hh
  · cases hh
  split at hh
  · cases hh
  split at hh
  · cases hh
  split at hh <;> cases hh <;> exact h2'

theorem loop_congr (hu : ∀ m g el ω, Inv m → u m g el ω = e.updatePm m g el ω)
    (hi : ∀ m g el ω m', Inv m → e.updatePm m g el ω = .ok m' → Inv m')
    (hs : ∀ m ω, Inv m → sm m ω = e.sample m ω) {N : Gen R → Except PyErr (Gen R)} (n : ℕ) :
    ∀ (t : ℕ) {s : St R C σ}, Inv s.pm →
    loop env { e with updatePm := u, sample := sm } f ftol ρ N n t s = loop env e f ftol ρ N n t s := by
  induction n with
  | zero => intro t s _; rfl
  | succ n ih =>
    intro t s h
    obtain ⟨h1, h2⟩ := step_congr (env := env) (f := f) (ftol := ftol) (ρ := ρ) (N := N) (t := t)
      hu hi hs h
    unfold loop
    rw [h1]
    rcases h3 : step env e f ftol ρ N t s with err | ⟨s', b⟩
    · rfl
    · cases b
      · exact ih _ (h2 _ _ h3)
      · rfl

/-- Two algorithms that agree on the models that occur have the same runs. -/
theorem minimize_congr (hu : ∀ m g el ω, Inv m → u m g el ω = e.updatePm m g el ω)
    (hi : ∀ m g el ω m', Inv m → e.updatePm m g el ω = .ok m' → Inv m')
    (hs : ∀ m ω, Inv m → sm m ω = e.sample m ω) {m : σ} (hm : Inv m) :
    minimize env { e with updatePm := u, sample := sm } f ftol m ρ = minimize env e f ftol m ρ := by
  have hst : start env { e with updatePm := u, sample := sm } f m ρ = start env e f m ρ := rfl
  unfold minimize
  rw [hst]
  rcases h1 : start env e f m ρ with err | s
  · rfl
  have hpm : s.pm = m := by
    unfold start at h1
    split at h1
    · cases h1
    split at h1
    · cases h1
    split at h1
    · split at h1
      · cases h1
      split at h1
      · cases h1
      cases h1; rfl
    · cases h1
  simp only
  rcases e.mkNoise ρ.noise with err | N
  · rfl
  simp only
  rw [loop_congr hu hi hs _ 1 (by rw [hpm]; exact hm)]

end congr

end Verif
