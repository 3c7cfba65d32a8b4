/-
C31: Latin hypercube initialisation.
-/
import Verif.Model.Lhs
import Verif.Spec.Lhs
import Verif.Model.Examples
import Verif.Lemmas.MultiGauss
import Mathlib.Data.List.Range
import Mathlib.Tactic.Linarith
import Mathlib.Tactic.NormNum
import Mathlib.Tactic.FieldSimp
import Mathlib.Tactic.Ring

set_option linter.unusedSectionVars false

namespace Verif

open Spec

variable {K : Type} [Field K] [LinearOrder K] [IsStrictOrderedRing K]
variable {lloyd : ℕ → List (List K) → Except PyErr (List (List K))} {b : Lhs K} {size : ℤ}
variable {pp : Bool} {ω : LhsDraws K} {out : Gen (List K)}

/-- What scipy guarantees about the random numbers of one call. -/
structure LhsDraws.Valid (ω : LhsDraws K) (d size : ℕ) : Prop where
  perm : ∀ j < d, ((List.range size).map (ω.perm j)).Perm ((List.range size).map (· + 1))
  unit : Unit01 ω.u

theorem LhsDraws.Valid.range {d n : ℕ} (h : ω.Valid d n) {j i : ℕ} (hj : j < d) (hi : i < n) :
    1 ≤ ω.perm j i ∧ ω.perm j i ≤ n := by
  have : ω.perm j i ∈ (List.range n).map (· + 1) :=
    (h.perm j hj).subset (List.mem_map.2 ⟨i, List.mem_range.2 hi, rfl⟩)
  obtain ⟨k, hk, he⟩ := List.mem_map.1 this
  have := List.mem_range.1 hk
  omega

theorem LhsDraws.Valid.exists_unique {d n : ℕ} (h : ω.Valid d n) {j k : ℕ} (hj : j < d)
    (hk : k < n) : ∃! i, i < n ∧ ω.perm j i = k + 1 := by
  have hmem : k + 1 ∈ (List.range n).map (ω.perm j) :=
    (h.perm j hj).symm.subset (List.mem_map.2 ⟨k, List.mem_range.2 hk, rfl⟩)
  obtain ⟨i, hi, he⟩ := List.mem_map.1 hmem
  refine ⟨i, ⟨List.mem_range.1 hi, he⟩, ?_⟩
  rintro i' ⟨hi', he'⟩
  have hnd : ((List.range n).map (ω.perm j)).Nodup :=
    (h.perm j hj).nodup_iff.2 (List.Nodup.map (fun a b h => by simpa using h) List.nodup_range)
  exact List.inj_on_of_nodup_map hnd (List.mem_range.2 hi') hi (he'.trans he.symm)

theorem latinHypercube_cube {d n : ℕ} (h : ω.Valid d n) : UnitCube d (latinHypercube d n ω) := by
  refine ⟨?_, ?_⟩
  · intro r hr
    obtain ⟨i, _, rfl⟩ := List.mem_map.1 hr
    simp
  · intro r hr x hx
    obtain ⟨i, hi, rfl⟩ := List.mem_map.1 hr
    obtain ⟨j, hj, rfl⟩ := List.mem_map.1 hx
    have hi := List.mem_range.1 hi
    obtain ⟨h1, h3⟩ := h.range (List.mem_range.1 hj) hi
    obtain ⟨u0, u1⟩ := h.unit i j
    have hn : (0 : K) < n := by exact_mod_cast (by omega : 0 < n)
    have h1' : (1 : K) ≤ ω.perm j i := by exact_mod_cast h1
    have h3' : (ω.perm j i : K) ≤ n := by exact_mod_cast h3
    rw [div_le_one hn]
    exact ⟨div_nonneg (by linarith) hn.le, by linarith⟩

theorem qmcScale_ok {d : ℕ} {s : List (List K)} {lo up : Bound K} (h : qmcScale d s lo up = .ok out) :
    s ≠ [] ∧ 1 ≤ d ∧ (∀ j < d, lo.at j < up.at j) ∧
    (∀ r ∈ s, ∀ x ∈ r, 0 ≤ x ∧ x ≤ 1) ∧
    out = ⟨.float, d, s.map (fun r => (List.range d).map (fun j =>
      r.getD j 0 * (up.at j - lo.at j) + lo.at j))⟩ := by
  unfold qmcScale at h
  split at h
  · cases h
  rename_i h1
  split at h
  · cases h
  rename_i h2
  split at h
  · cases h
  split at h
  · cases h
  split at h
  · cases h
  rename_i h5
  simp only [not_or, not_not, List.all_eq_true, decide_eq_true_eq, List.mem_range] at h1 h2 h5
  exact ⟨h1.1, by omega, h5, h2, (Except.ok.inj h).symm⟩

/-- The sample that is scaled: the Latin hypercube itself or the output of Lloyd's algorithm. -/
theorem Lhs.sample_ok (h : b.sample lloyd size pp ω = .ok out) :
    0 ≤ size ∧ ∃ s, qmcScale b.n s b.lower b.upper = .ok out ∧
      if pp then s = latinHypercube b.n size.toNat ω
      else lloyd b.n (latinHypercube b.n size.toNat ω) = .ok s := by
  unfold Lhs.sample at h
  split at h
  · cases h
  rename_i hs
  refine ⟨by omega, ?_⟩
  cases pp with
  | true => exact ⟨_, h, rfl⟩
  | false =>
    simp only [Bool.false_eq_true, if_false] at h ⊢
    split at h
    · cases h
    rename_i s hl
    exact ⟨s, h, hl⟩

/-- **C31** the shape and the bounds: `size` rows of `n_variables` values, each between the bounds of
its variable. -/
theorem C31_within_bounds (hL : IsLloyd lloyd) (hω : ω.Valid b.n size.toNat)
    (h : b.sample lloyd size pp ω = .ok out) :
    (out.rows.length : ℤ) = size ∧ out.cols = b.n ∧ Rect b.n out.rows ∧
      ∀ r ∈ out.rows, ∀ j < b.n, ∃ x, r[j]? = some x ∧ b.lower.at j ≤ x ∧ x ≤ b.upper.at j := by
  obtain ⟨hs, s, hq, hpp⟩ := Lhs.sample_ok h
  obtain ⟨_, _, hb, hu, rfl⟩ := qmcScale_ok hq
  have hcube := latinHypercube_cube hω
  have hlen : s.length = size.toNat ∧ UnitCube b.n s := by
    cases pp with
    | true =>
      simp only [if_true] at hpp
      rw [hpp]; exact ⟨by simp [latinHypercube], hcube⟩
    | false =>
      simp only [Bool.false_eq_true, if_false] at hpp
      obtain ⟨h1, h2⟩ := hL.cube _ _ _ hcube hpp
      exact ⟨by rw [h2]; simp [latinHypercube], h1⟩
  refine ⟨by simp; omega, rfl, ?_, ?_⟩
  · intro r hr
    obtain ⟨q, _, rfl⟩ := List.mem_map.1 hr
    simp
  · intro r hr j hj
    obtain ⟨q, hq, rfl⟩ := List.mem_map.1 hr
    have hql := hlen.2.1 q hq
    refine ⟨_, by rw [List.getElem?_map, List.getElem?_range hj]; rfl, ?_⟩
    have hx := hu q hq (q.getD j 0) (by
      rw [List.getD_eq_getElem?_getD, List.getElem?_eq_getElem (by omega), Option.getD_some]
      exact List.getElem_mem _)
    have hpos : 0 < b.upper.at j - b.lower.at j := sub_pos.2 (hb j hj)
    constructor
    · have := mul_nonneg hx.1 hpos.le; linarith
    · have := mul_le_of_le_one_left hpos.le hx.2; linarith

/-- **C31** with `post_process=True` the Lloyd optimisation is *not* used: the result does not depend
on it, and every variable has exactly one individual in each of the `size` slices. -/
theorem C31_stratified_partial (hω : ω.Valid b.n size.toNat)
    (h : b.sample lloyd size true ω = .ok out) :
    (∀ lloyd', b.sample lloyd' size true ω = .ok out) ∧
    ∀ j < b.n, Stratified (b.lower.at j) (b.upper.at j) size.toNat (col out.rows j) := by
  refine ⟨fun lloyd' => by rw [← h]; unfold Lhs.sample; simp, ?_⟩
  intro j hj
  obtain ⟨hs, s, hq, hpp⟩ := Lhs.sample_ok h
  simp only [if_true] at hpp
  subst hpp
  obtain ⟨hne, _, hb, _, rfl⟩ := qmcScale_ok hq
  set n := size.toNat with hn
  have hn0 : 0 < n := by
    rcases Nat.eq_zero_or_pos n with h0 | h0
    · exact absurd (by rw [h0]; rfl) hne
    · exact h0
  have hnK : (0 : K) < n := by exact_mod_cast hn0
  have hpos : 0 < b.upper.at j - b.lower.at j := sub_pos.2 (hb j hj)
  have hcol : col ((latinHypercube b.n n ω).map (fun r => (List.range b.n).map (fun j =>
      r.getD j 0 * (b.upper.at j - b.lower.at j) + b.lower.at j))) j =
      (List.range n).map (fun i => ((ω.perm j i : K) - ω.u i j) / n *
        (b.upper.at j - b.lower.at j) + b.lower.at j) := by
    unfold col latinHypercube
    rw [List.map_map, List.map_map]
    apply List.map_congr_left
    intro i _
    simp [List.getD_eq_getElem?_getD, List.getElem?_range hj]
  rw [hcol]
  refine ⟨by simp, ?_⟩
  intro k hk
  have hiff : ∀ i < n, (∃ x, ((List.range n).map (fun i => ((ω.perm j i : K) - ω.u i j) / n *
      (b.upper.at j - b.lower.at j) + b.lower.at j))[i]? = some x ∧
      InSlice (b.lower.at j) (b.upper.at j) n k x) ↔ ω.perm j i = k + 1 := by
    intro i hi
    obtain ⟨u0, u1⟩ := hω.unit i j
    obtain ⟨hp1, _⟩ := hω.range hj hi
    rw [List.getElem?_map, List.getElem?_range hi]
    simp only [Option.map_some, Option.some.injEq, exists_eq_left', InSlice]
    have e1 : b.lower.at j + (b.upper.at j - b.lower.at j) * ((k : K) / n) <
        ((ω.perm j i : K) - ω.u i j) / n * (b.upper.at j - b.lower.at j) + b.lower.at j ↔
        (k : K) < (ω.perm j i : K) - ω.u i j := by
      rw [add_comm, add_lt_add_iff_right, mul_comm, mul_lt_mul_iff_left₀ hpos,
        div_lt_div_iff_of_pos_right hnK]
    have e2 : ((ω.perm j i : K) - ω.u i j) / n * (b.upper.at j - b.lower.at j) + b.lower.at j ≤
        b.lower.at j + (b.upper.at j - b.lower.at j) * (((k : K) + 1) / n) ↔
        (ω.perm j i : K) - ω.u i j ≤ (k : K) + 1 := by
      rw [add_comm (b.lower.at j), add_le_add_iff_right, mul_comm (b.upper.at j - b.lower.at j),
        mul_le_mul_iff_left₀ hpos, div_le_div_iff_of_pos_right hnK]
    rw [e1, e2]
    constructor
    · rintro ⟨h1, h2⟩
      have h3 : (k : K) < ω.perm j i := by linarith
      have h4 : (ω.perm j i : K) < (k : K) + 2 := by linarith
      have h3' : k < ω.perm j i := by exact_mod_cast h3
      have h4' : ω.perm j i < k + 2 := by exact_mod_cast h4
      omega
    · intro he
      rw [he]; push_cast
      constructor <;> linarith
  obtain ⟨i, ⟨hi, hpi⟩, huniq⟩ := hω.exists_unique hj hk
  refine ⟨i, ⟨by simpa using hi, (hiff i hi).2 hpi⟩, ?_⟩
  rintro i' ⟨hi', hx'⟩
  have hi'' : i' < n := by simpa using hi'
  exact huniq i' ⟨hi'', (hiff i' hi'').1 hx'⟩

/-- **C31** when `sample` succeeds with `post_process=True`: at least one individual and one variable,
bounds that broadcast and are strictly ordered. -/
theorem C31_succeeds (hω : ω.Valid b.n size.toNat) (hs : 1 ≤ size) (hn : 1 ≤ b.n)
    (hl : b.lower.Usable b.n) (hu : b.upper.Usable b.n) (hb : ∀ j < b.n, b.lower.at j < b.upper.at j) :
    ∃ out, b.sample lloyd size true ω = .ok out := by
  have hcube := latinHypercube_cube hω
  obtain ⟨_, hl1, hl2⟩ := hl.facts
  obtain ⟨_, hu1, hu2⟩ := hu.facts
  unfold Lhs.sample
  rw [if_neg (by omega), if_pos rfl]
  unfold qmcScale
  have h1 : ¬ (latinHypercube b.n size.toNat ω = [] ∨ b.n = 0) := by
    rintro (h | h)
    · have := congrArg List.length h
      simp [latinHypercube] at this
      omega
    · omega
  rw [if_neg h1, if_neg, if_neg, if_neg, if_neg]
  · exact ⟨_, rfl⟩
  · rw [not_not]
    simp only [List.all_eq_true, List.mem_range, decide_eq_true_eq]
    exact hb
  · simp only [not_or]; exact ⟨by simp [hl1], by simp [hu1]⟩
  · rw [not_not]; exact ⟨hl2, hu2⟩
  · rw [not_not]
    simp only [List.all_eq_true, decide_eq_true_eq]
    exact hcube.2

/-- **C31** without `post_process` (the default) the Lloyd optimisation *is* used: the individuals are
its output, scaled to the bounds, and if it raises, `sample` raises. -/
theorem C31_default_uses_lloyd (hs : 0 ≤ size) :
    (∀ err, lloyd b.n (latinHypercube b.n size.toNat ω) = .error err →
      b.sample lloyd size false ω = .error err) ∧
    ∀ s, lloyd b.n (latinHypercube b.n size.toNat ω) = .ok s →
      b.sample lloyd size false ω = qmcScale b.n s b.lower b.upper := by
  unfold Lhs.sample
  rw [if_neg (by omega)]
  constructor
  · intro err h; simp [h]
  · intro s h; simp [h]

/-- **C31** with one variable the default call always raises `ValueError`. -/
theorem C31_one_variable (hL : IsLloyd lloyd) (hn : b.n = 1) :
    b.sample lloyd size false ω = .error .valueError := by
  by_cases hs : 0 ≤ size
  · exact (C31_default_uses_lloyd hs).1 _ (hL.one _ (by omega) _)
  · unfold Lhs.sample; rw [if_pos (by omega)]

/-- A stand-in for Lloyd's algorithm that moves every point to the centre. -/
def Ex.centre : ℕ → List (List ℚ) → Except PyErr (List (List ℚ)) := fun d s =>
  if d < 2 then .error .valueError else .ok (s.map (fun _ => List.replicate d (1/2)))

theorem Ex.centre_lloyd : IsLloyd Ex.centre where
  one := by intro d hd s; simp [Ex.centre, hd]
  cube := by
    intro d s s' _ h
    unfold Ex.centre at h
    split at h
    · cases h
    rw [← Except.ok.inj h]
    refine ⟨⟨?_, ?_⟩, by simp⟩
    · intro r hr
      obtain ⟨_, _, rfl⟩ := List.mem_map.1 hr
      simp
    · intro r hr x hx
      obtain ⟨_, _, rfl⟩ := List.mem_map.1 hr
      rw [List.eq_of_mem_replicate hx]
      norm_num

/-- Two variables in `[-1, 1]`. -/
def Ex.lhs : Lhs ℚ := { n := 2, lower := .list [-1, -1], upper := .scalar 1 }

/-- Two individuals. -/
def Ex.lhsDraws : LhsDraws ℚ := { perm := fun j i => (i + j) % 2 + 1, u := fun _ _ => 1/2 }

theorem Ex.lhsDraws_valid : Ex.lhsDraws.Valid 2 2 where
  perm := by
    intro j hj
    have : j = 0 ∨ j = 1 := by omega
    rcases this with rfl | rfl <;> decide
  unit := by intro i j; constructor <;> norm_num [Ex.lhsDraws]

/-- **C31** is false: `post_process=True` returns the plain sample and the default returns the
optimised one, which need not be stratified; with one variable the default cannot be used. -/
theorem C31_refuted : ∃ plain optimised,
    Ex.lhs.sample Ex.centre 2 true Ex.lhsDraws = .ok plain ∧
    Ex.lhs.sample Ex.centre 2 false Ex.lhsDraws = .ok optimised ∧
    plain.rows = [[-1/2, 1/2], [1/2, -1/2]] ∧ optimised.rows = [[0, 0], [0, 0]] ∧
    ¬ Stratified (-1) 1 2 (col optimised.rows 0) ∧
    ∀ (lloyd : ℕ → List (List ℚ) → Except PyErr (List (List ℚ))), IsLloyd lloyd → ∀ size ω,
      (Lhs.mk 1 (.scalar (-1)) (.scalar 1)).sample lloyd size false ω = .error .valueError := by
  have h : ((Ex.lhs.sample Ex.centre 2 true Ex.lhsDraws).toOption.map (fun g => g.rows),
      (Ex.lhs.sample Ex.centre 2 false Ex.lhsDraws).toOption.map (fun g => g.rows)) =
      (some [[-1/2, 1/2], [1/2, -1/2]], some [[0, 0], [0, 0]]) := by decide +kernel
  simp only [Prod.mk.injEq] at h
  obtain ⟨p, hp, hp1⟩ := Ex.facts_of h.1
  obtain ⟨q, hq, hq1⟩ := Ex.facts_of h.2
  refine ⟨p, q, hp, hq, hp1, hq1, ?_, fun lloyd hL size ω => C31_one_variable hL rfl⟩
  rw [hq1]
  rintro ⟨_, hst⟩
  obtain ⟨i, ⟨hi, x, hx, h1, _⟩, _⟩ := hst 1 (by omega)
  have : x = 0 := by
    simp only [col, List.map_cons, List.map_nil, List.length_cons, List.length_nil] at hi hx
    have : i = 0 ∨ i = 1 := by omega
    rcases this with rfl | rfl <;> simpa using hx.symm
  rw [this] at h1
  norm_num at h1

/-- The hypotheses of the theorems are met. -/
example : ∃ out, Ex.lhs.sample Ex.centre 2 true Ex.lhsDraws = .ok out ∧
    Stratified (-1) 1 2 (col out.rows 0) ∧ Stratified (-1) 1 2 (col out.rows 1) := by
  obtain ⟨out, h⟩ := C31_succeeds (lloyd := Ex.centre) (b := Ex.lhs) (size := 2) Ex.lhsDraws_valid
    (by norm_num) (by decide) rfl trivial (by
      intro j hj
      have : j < 2 := hj
      have : j = 0 ∨ j = 1 := by omega
      rcases this with rfl | rfl <;> norm_num [Ex.lhs, Bound.at])
  have := (C31_stratified_partial Ex.lhsDraws_valid h).2
  exact ⟨out, h, this 0 (by decide), this 1 (by decide)⟩

/-- **C31** bound lists of the wrong length are rejected at construction. -/
theorem C31_wrong_list_rejected {K : Type} {n : ℕ} {lo up : Bound K} {l : List K}
    (h : lo = .list l ∨ up = .list l) (hl : l.length ≠ n) : Lhs.new n lo up = .error .assertion := by
  unfold Lhs.new
  rcases h with rfl | rfl
  · rw [if_pos (by simpa [Bound.check] using hl)]
  · split
    · rfl
    · rw [if_pos (by simpa [Bound.check] using hl)]

/-- **C31** numbers and lists of the right length are accepted, and the object has them. -/
theorem C31_constructs {K : Type} {n : ℕ} {lo up : Bound K}
    (hlo : (∃ x, lo = .scalar x) ∨ ∃ l, lo = .list l ∧ l.length = n)
    (hup : (∃ x, up = .scalar x) ∨ ∃ l, up = .list l ∧ l.length = n) :
    Lhs.new n lo up = .ok { n := n, lower := lo, upper := up } := by
  have h : ∀ b : Bound K, ((∃ x, b = .scalar x) ∨ ∃ l, b = .list l ∧ l.length = n) → b.check n = true := by
    rintro b (⟨x, rfl⟩ | ⟨l, rfl, hl⟩)
    · rfl
    · simpa [Bound.check] using hl
  unfold Lhs.new
  rw [if_neg (by rw [h _ hlo]; decide), if_neg (by rw [h _ hup]; decide)]

/-- C31: two variables need lists of length two. -/
example : Lhs.new 2 (.scalar 0) (.list ([1, 2] : List ℚ)) = .ok ⟨2, .scalar 0, .list [1, 2]⟩ ∧
    Lhs.new 2 (.scalar 0) (.list ([1] : List ℚ)) = .error .assertion :=
  ⟨C31_constructs (.inl ⟨_, rfl⟩) (.inr ⟨_, rfl, rfl⟩), C31_wrong_list_rejected (.inr rfl) (by decide)⟩

end Verif
