/-
C39 - C41 (plotting tools) and C44 (`one_max`).
-/
import Verif.Lemmas.Tools
import Mathlib.Algebra.BigOperators.Group.List.Basic
import Mathlib.Data.Rat.Defs
import Mathlib.Tactic.NormNum

set_option linter.unusedSectionVars false

namespace Verif

variable {K : Type} [Field K]

/-- Endpoint `x` denotes variable `i` of `n`: `i` itself, or `i - n` (numpy counts negative indices
from the end). -/
def Denotes (n : ℕ) (x : Endpoint) (i : ℕ) : Prop :=
  i < n ∧ (x = .int i ∨ x = .int ((i : ℤ) - n))

theorem resolve_iff {n : ℕ} {x : Endpoint} {i : ℕ} : x.resolve n = .ok i ↔ Denotes n x i := by
  constructor
  · intro h
    obtain ⟨h1, z, rfl, rfl | rfl⟩ := resolve_ok h
    · exact ⟨h1, .inl rfl⟩
    · exact ⟨h1, .inr rfl⟩
  · rintro ⟨h1, rfl | rfl⟩
    · exact resolve_int h1 (.inl rfl)
    · exact resolve_int h1 (.inr rfl)

/-- **C39** if every endpoint denotes a variable, the result is the `n × n` matrix with a 1 exactly
at the listed arcs. -/
theorem C39_adjacency {n : ℕ} {arcs : List (Endpoint × Endpoint)}
    (h : ∀ a ∈ arcs, (∃ i, Denotes n a.1 i) ∧ ∃ j, Denotes n a.2 j) :
    ∃ m : List (List K), arcs2adjMat arcs n = .ok m ∧ m.length = n ∧ (∀ r ∈ m, r.length = n) ∧
      ∀ i j, i < n → j < n →
        ((∃ a ∈ arcs, Denotes n a.1 i ∧ Denotes n a.2 j) → m[i]?.bind (·[j]?) = some 1) ∧
        ((¬ ∃ a ∈ arcs, Denotes n a.1 i ∧ Denotes n a.2 j) → m[i]?.bind (·[j]?) = some 0) := by
  classical
  have hz : (List.replicate n (List.replicate n (0 : K))).length = n ∧
      ∀ r ∈ List.replicate n (List.replicate n (0 : K)), r.length = n := by
    refine ⟨by simp, ?_⟩
    intro r hr
    rw [(List.mem_replicate.1 hr).2]; simp
  unfold arcs2adjMat
  rw [if_neg (by omega), Int.toNat_natCast]
  rcases addArcs_spec (K := K) arcs hz.1 hz.2 with ⟨m, e1, e2, e3, _, e5⟩ | ⟨_, a, ha, e⟩
  · refine ⟨m, e1, e2, e3, ?_⟩
    intro i j hi hj
    have := e5 i j hi hj
    simp only [resolve_iff] at this
    constructor
    · intro hex; rw [this, if_pos hex]
    · intro hex
      rw [this, if_neg hex]
      simp [hi, hj]
  · obtain ⟨⟨i, hi⟩, j, hj⟩ := h a ha
    rw [resolve_iff.2 hi, resolve_iff.2 hj] at e
    rcases e with e | e <;> cases e

/-- **C39** any arc with an endpoint that denotes no variable (an integer outside `-n .. n-1`, or a
variable name as returned by `print_structure`) is an `IndexError`. -/
theorem C39_out_of_range {n : ℕ} {arcs : List (Endpoint × Endpoint)} {a : Endpoint × Endpoint}
    (ha : a ∈ arcs) (h : (¬ ∃ i, Denotes n a.1 i) ∨ ¬ ∃ j, Denotes n a.2 j) :
    (arcs2adjMat arcs n : Except PyErr (List (List K))) = .error .indexError := by
  have hz : (List.replicate n (List.replicate n (0 : K))).length = n ∧
      ∀ r ∈ List.replicate n (List.replicate n (0 : K)), r.length = n := by
    refine ⟨by simp, ?_⟩
    intro r hr
    rw [(List.mem_replicate.1 hr).2]; simp
  unfold arcs2adjMat
  rw [if_neg (by omega), Int.toNat_natCast]
  rcases addArcs_spec (K := K) arcs hz.1 hz.2 with ⟨m, _, _, _, e4, _⟩ | ⟨e, _⟩
  · obtain ⟨⟨i, hi⟩, j, hj⟩ := e4 a ha
    rcases h with h | h
    · exact absurd ⟨i, resolve_iff.1 hi⟩ h
    · exact absurd ⟨j, resolve_iff.1 hj⟩ h
  · exact e

/-- **C39** in particular for names: `arcs2adj_mat(pm.print_structure(), n)` never succeeds for a
structure with at least one arc. -/
theorem C39_names_rejected {n : ℕ} {arcs : List (String × String)} (h : arcs ≠ []) :
    (arcs2adjMat (arcs.map (fun a => (.name a.1, .name a.2))) n : Except PyErr (List (List K)))
      = .error .indexError := by
  obtain ⟨a, as, rfl⟩ := List.exists_cons_of_ne_nil h
  refine C39_out_of_range (a := (.name a.1, .name a.2)) (by simp) (.inl ?_)
  rintro ⟨i, _, h | h⟩ <;> cases h

theorem C39_negative_n {n : ℤ} (hn : n < 0) (arcs : List (Endpoint × Endpoint)) :
    (arcs2adjMat arcs n : Except PyErr (List (List K))) = .error .valueError := by
  unfold arcs2adjMat; rw [if_pos hn]

example : (arcs2adjMat [(.int 0, .int 1), (.int 2, .int 1), (.int 0, .int 1), (.int (-1), .int 0)] 3
    : Except PyErr (List (List ℚ))) = .ok [[0, 1, 0], [0, 0, 0], [1, 1, 0]] := by decide +kernel
example : (arcs2adjMat [(.int 0, .int 1), (.int 0, .int 3)] 3 : Except PyErr (List (List ℚ))) =
    .error .indexError := by decide +kernel

/-- **C40** every variable gets a position; variable number `i` of `n` stands in column
`i mod c` and row `i / c` of a grid with `c = ⌊√n⌋` columns. -/
theorem C40_positions {L : Type} [DecidableEq L] {vars : List L} (hne : vars ≠ [])
    (hn : vars.Nodup) : ∃ d : List (L × (ℤ × ℤ)), setPositions vars = .ok d ∧
      d.map Prod.fst = vars ∧ ∃ c : ℕ, 0 < c ∧ c * c ≤ vars.length ∧ vars.length < (c + 1) * (c + 1) ∧
        ∀ (i : ℕ) x, vars[i]? = some x →
          d[i]? = some (x, (((i % c : ℕ) : ℤ), -((i / c : ℕ) : ℤ))) := by
  have hlen : vars.length ≠ 0 := by
    intro h; exact hne (List.length_eq_zero_iff.1 h)
  have hc := sqrt_pos_of hlen
  unfold setPositions
  simp only
  rw [if_neg (by omega)]
  set c := Nat.sqrt vars.length with hcd
  obtain ⟨hrow, _⟩ := rows_enough (n := vars.length) hc
  set r := (⌈(vars.length : ℚ) / (c : ℚ)⌉).toNat
  have hpl : (posList r c).length = r * c := by unfold posList; simp
  obtain ⟨ps, h1, h2, h3⟩ := assignPos_ok (pos := posList r c) (i := 0) (d := []) hn (by simp)
    (by rw [hpl]; omega)
  refine ⟨_, h3, ?_, c, hc, Nat.sqrt_le _, Nat.lt_succ_sqrt _, ?_⟩
  · rw [List.nil_append, List.map_fst_zip]; omega
  · intro i x hx
    have hi : i < vars.length := (List.getElem?_eq_some_iff.1 hx).1
    have := h2 i hi
    rw [Nat.zero_add, posList_get r c i (by omega)] at this
    rw [List.nil_append, List.getElem?_zip_eq_some]
    exact ⟨hx, this⟩

/-- **C40** no two variables share a position. -/
theorem C40_no_overlap {L : Type} [DecidableEq L] {vars : List L} {d : List (L × (ℤ × ℤ))}
    (hn : vars.Nodup) (h : setPositions vars = .ok d) : (d.map Prod.snd).Nodup := by
  by_cases hne : vars = []
  · subst hne
    unfold setPositions at h
    simp at h
  obtain ⟨d', h', hk, c, hc, _, _, hp⟩ := C40_positions hne hn
  rw [h] at h'
  obtain rfl := Except.ok.inj h'
  have hl : d.length = vars.length := by rw [← hk]; simp
  rw [List.nodup_iff_injective_get]
  rintro ⟨i, hi⟩ ⟨j, hj⟩ hij
  simp only [List.length_map] at hi hj
  have key : ∀ k, (hk : k < d.length) → d[k].2 = (((k % c : ℕ) : ℤ), -((k / c : ℕ) : ℤ)) := by
    intro k hk
    have := hp k vars[k] (List.getElem?_eq_getElem (by omega))
    rw [List.getElem?_eq_getElem hk] at this
    rw [Option.some.inj this]
  simp only [List.get_eq_getElem, List.getElem_map] at hij
  rw [key i hi, key j hj] at hij
  simp only [Prod.mk.injEq, Nat.cast_inj, neg_inj] at hij
  have a1 := Nat.div_add_mod i c
  have a2 := Nat.div_add_mod j c
  rw [hij.1, hij.2] at a1
  simp only [Fin.mk.injEq]
  omega

/-- **C40** the empty list is a `ZeroDivisionError`. -/
theorem C40_empty {L : Type} [DecidableEq L] :
    setPositions ([] : List L) = .error .zeroDivision := by
  unfold setPositions; simp

example : setPositions ["a", "b", "c", "d", "e"] =
    .ok [("a", (0, 0)), ("b", (1, 0)), ("c", (0, -1)), ("d", (1, -1)), ("e", (0, -2))] := by
  decide +kernel

theorem dictGet_set {L β : Type} [DecidableEq L] (d : List (L × β)) (k k' : L) (v : β) :
    dictGet (dictSet d k v) k' = if k = k' then some v else dictGet d k' := by
  induction d with
  | nil =>
    by_cases h : k = k' <;> simp [dictSet, dictGet, h]
  | cons x d ih =>
    obtain ⟨k0, v0⟩ := x
    unfold dictGet at ih ⊢
    by_cases h0 : k0 = k
    · subst h0
      by_cases h : k0 = k' <;> simp [dictSet, h]
    · simp only [dictSet, if_neg h0, List.find?_cons]
      by_cases h : k0 = k'
      · have : k ≠ k' := fun e => h0 (h.trans e.symm)
        simp [h, this]
      · simp only [h, decide_false]
        exact ih

theorem assignPos_get {L β : Type} [DecidableEq L] {pos : List β} {xs : List L} {i : ℕ} {d d' : List (L × β)}
    (h : assignPos pos xs i d = .ok d') (x : L) :
    (∀ k, xs[k]? = some x → (∀ k' > k, xs[k']? ≠ some x) → dictGet d' x = pos[i + k]?) ∧
    (x ∉ xs → dictGet d' x = dictGet d x) := by
  induction xs generalizing i d with
  | nil => obtain rfl := Except.ok.inj h; simp
  | cons y ys ih =>
    unfold assignPos at h
    split at h
    · cases h
    rename_i p hp
    obtain ⟨h1, h2⟩ := ih h
    constructor
    · intro k hk hlast
      cases k with
      | zero =>
        obtain rfl : y = x := by simpa using hk
        have hni : y ∉ ys := by
          intro hm
          obtain ⟨k', hk'⟩ := List.mem_iff_getElem?.1 hm
          exact hlast (k' + 1) (by omega) (by simpa using hk')
        rw [h2 hni, dictGet_set, if_pos rfl, Nat.add_zero, hp]
      | succ k =>
        rw [h1 k (by simpa using hk) (fun k' hk' => by
          have := hlast (k' + 1) (by omega)
          simpa using this)]
        congr 1; omega
    · intro hni
      rw [List.mem_cons, not_or] at hni
      rw [h2 hni.2, dictGet_set, if_neg (Ne.symm hni.1)]

/-- **C40** for any list of variables, also with repetitions: a variable is placed at the grid position of its
last occurrence. -/
theorem C40_repeated {L : Type} [DecidableEq L] {vars : List L} (hne : vars ≠ []) :
    ∃ d : List (L × (ℤ × ℤ)), setPositions vars = .ok d ∧
      ∃ c : ℕ, 0 < c ∧ c * c ≤ vars.length ∧ vars.length < (c + 1) * (c + 1) ∧
        ∀ (i : ℕ) x, vars[i]? = some x → (∀ j > i, vars[j]? ≠ some x) →
          dictGet d x = some (((i % c : ℕ) : ℤ), -((i / c : ℕ) : ℤ)) := by
  have hlen : vars.length ≠ 0 := by
    intro h; exact hne (List.length_eq_zero_iff.1 h)
  have hc := sqrt_pos_of hlen
  unfold setPositions
  simp only
  rw [if_neg (by omega)]
  set c := Nat.sqrt vars.length with hcd
  obtain ⟨hrow, _⟩ := rows_enough (n := vars.length) hc
  set r := (⌈(vars.length : ℚ) / (c : ℚ)⌉).toNat
  have hpl : (posList r c).length = r * c := by unfold posList; simp
  have hex : ∀ (xs : List L) (i : ℕ) (d : List (L × (ℤ × ℤ))), i + xs.length ≤ (posList r c).length →
      ∃ d', assignPos (posList r c) xs i d = .ok d' := by
    intro xs
    induction xs with
    | nil => intro i d _; exact ⟨d, rfl⟩
    | cons x xs ih =>
      intro i d h
      simp only [List.length_cons] at h
      unfold assignPos
      rw [List.getElem?_eq_getElem (by omega)]
      exact ih _ _ (by omega)
  obtain ⟨d, hd⟩ := hex vars 0 [] (by rw [hpl]; omega)
  refine ⟨d, hd, c, hc, Nat.sqrt_le _, Nat.lt_succ_sqrt _, ?_⟩
  intro i x hx hlast
  have hi : i < vars.length := (List.getElem?_eq_some_iff.1 hx).1
  rw [(assignPos_get hd x).1 i hx hlast, Nat.zero_add, posList_get r c i (by omega)]

example : setPositions ["a", "b", "a", "c"] = .ok [("a", (0, -1)), ("b", (1, 0)), ("c", (1, -1))] := by
  decide +kernel

/-- **C41** `+s` at even positions, `-s` at odd positions. -/
theorem C41_alternating (n : ℕ) (s : K) : ∃ h, plotNoise (n : ℤ) s = .ok h ∧ h.length = n ∧
    ∀ i, i < n → h[i]? = some (if i % 2 = 0 then s else -s) := by
  unfold plotNoise
  rw [if_neg (by omega)]
  refine ⟨_, rfl, by simp, ?_⟩
  intro i hi
  simp only [List.getElem?_map, List.getElem?_mapIdx, Int.toNat_natCast, List.getElem?_replicate,
    if_pos hi, Option.map_some, Option.some.injEq]
  split <;> ring

theorem C41_negative {n : ℤ} (hn : n < 0) (s : K) : plotNoise n s = .error .valueError := by
  unfold plotNoise; rw [if_pos hn]

example : plotNoise 3 (1/2 : ℚ) = .ok [1/2, -1/2, 1/2] := by decide +kernel

section onemax
variable [LinearOrder K] [IsStrictOrderedRing K]

theorem oneMax_eq (x : List K) : oneMax x = x.sum := by
  unfold oneMax; rw [List.sum_eq_foldl]

/-- **C44** the number of ones. -/
theorem C44_counts_ones {x : List K} (h : ∀ v ∈ x, v = 0 ∨ v = 1) :
    oneMax x = ((x.countP (fun v => v = 1) : ℕ) : K) := by
  rw [oneMax_eq]
  induction x with
  | nil => simp
  | cons v x ih =>
    rw [List.sum_cons, ih (fun w hw => h w (by simp [hw])), List.countP_cons]
    rcases h v (by simp) with rfl | rfl
    · simp
    · simp [add_comm]

/-- **C44** between 0 and the length, and equal to the length only for all ones. -/
theorem C44_range {x : List K} (h : ∀ v ∈ x, v = 0 ∨ v = 1) :
    0 ≤ oneMax x ∧ oneMax x ≤ (x.length : K) ∧ (oneMax x = (x.length : K) ↔ ∀ v ∈ x, v = 1) := by
  rw [C44_counts_ones h]
  refine ⟨Nat.cast_nonneg _, Nat.cast_le.2 List.countP_le_length, ?_⟩
  rw [Nat.cast_inj, List.countP_eq_length]
  simp

/-- **C44** as a cost function to minimise, `-one_max` is smallest exactly at all ones. -/
theorem C44_minimiser {x : List K} (h : ∀ v ∈ x, v = 0 ∨ v = 1) :
    (∀ y : List K, (∀ v ∈ y, v = 0 ∨ v = 1) → y.length = x.length → -oneMax x ≤ -oneMax y) ↔
      ∀ v ∈ x, v = 1 := by
  obtain ⟨_, h2, h3⟩ := C44_range h
  constructor
  · intro hmin
    have hones : ∀ v ∈ List.replicate x.length (1 : K), v = 1 := fun v hv => (List.mem_replicate.1 hv).2
    have := hmin (List.replicate x.length 1) (fun v hv => .inr (hones v hv)) (by simp)
    have h4 := ((C44_range (x := List.replicate x.length (1 : K))
      (fun v hv => .inr (hones v hv))).2.2).2 hones
    rw [h4, List.length_replicate] at this
    exact h3.1 (le_antisymm h2 (by linarith))
  · intro hall y hy hl
    have h5 := (C44_range hy).2.1
    rw [hl, ← h3.2 hall] at h5
    linarith

example : oneMax ([1, 0, 1, 1] : List ℚ) = 3 := by decide +kernel
end onemax

end Verif
