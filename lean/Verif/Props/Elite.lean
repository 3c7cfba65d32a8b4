/-
Selection and elitism: C09, C10, C11 (`EDA._truncation`, eda.py:93-108, in every iteration).
-/
import Verif.Lemmas.Elite
import Verif.Model.Examples

namespace Verif

open PyCost Spec

section general
variable {R C σ Ω : Type} [PyCost C] [LawfulCost C]
variable {env : Env C} {e : Eda R σ Ω} {f : ℕ → R → C} {ftol : C} {pm : σ} {ρ : Rand Ω}
variable {t : ℕ} {s s1 : St R C σ}

omit [LawfulCost C] in
/-- **C09** in every iteration the selected individuals, with their costs, are the best of the pool
(current generation plus elite), in ascending order; `truncation_length` of them (or the whole pool
if it is smaller).  For every valid `argsort`, with ties and NaN. -/
theorem C09_truncation_keeps_best (hv : env.Valid) (h : Visited env e f ftol pm ρ t s)
    (hs : truncation env e s = .ok s1) (ht : 0 ≤ e.truncLen) :
    IsBestPrefix (s.gen.rows.zip s.evals ++ s.elite.rows.zip s.evalsElite)
      (s1.gen.rows.zip s1.evals) ∧
    s1.gen.rows.length = s1.evals.length ∧
    s1.gen.rows.length = min e.truncLen.toNat (s.gen.rows.length + s.elite.rows.length) := by
  have ha := visited_aligned hv h
  obtain ⟨P, p1, p2, p3, p4, _, _⟩ := truncation_ok hv ha hs
  have hlen := p1.length_eq
  rw [poolOf_length ha] at hlen
  have hsl : sliceLen P.length e.truncLen = min e.truncLen.toNat P.length := by
    unfold sliceLen; rw [if_pos ht]
  have hz : s1.gen.rows.zip s1.evals = P.take e.truncLen.toNat := by
    rw [p3, p4, ← List.zip_of_prod rfl rfl, hsl, ← List.take_eq_take_min]
  refine ⟨⟨P.drop e.truncLen.toNat, ?_, ?_⟩, ?_, ?_⟩
  · rw [hz, List.take_append_drop, ← poolOf_eq ha]; exact p1
  · rw [hz, List.take_append_drop]; exact p2
  · rw [p3, p4]; simp
  · rw [p3, List.length_map, hsl, List.length_take, hlen]; omega

omit [LawfulCost C] in
/-- **C09**, consequence: nothing that was discarded is strictly cheaper than something kept. -/
theorem C09_no_better_discarded (hv : env.Valid) (h : Visited env e f ftol pm ρ t s)
    (hs : truncation env e s = .ok s1) (ht : 0 ≤ e.truncLen) :
    ∃ rest, (s1.gen.rows.zip s1.evals ++ rest).Perm
        (s.gen.rows.zip s.evals ++ s.elite.rows.zip s.evalsElite) ∧
      ∀ a ∈ s1.gen.rows.zip s1.evals, ∀ b ∈ rest, lt b.2 a.2 = false := by
  obtain ⟨⟨rest, h1, h2⟩, _⟩ := C09_truncation_keeps_best hv h hs ht
  exact ⟨rest, h1, fun a ha b hb => ((List.pairwise_append.1 h2).2.2 a ha b hb).1⟩

example : ∃ s s1, Visited Ex.env Ex.eda Ex.cost 0 Ex.pm Ex.rand 2 s ∧
    truncation Ex.env Ex.eda s = .ok s1 ∧ s1.gen.rows = [[1, 1], [1, 1]] ∧
    IsBestPrefix (s.gen.rows.zip s.evals ++ s.elite.rows.zip s.evalsElite)
      (s1.gen.rows.zip s1.evals) := by
  obtain ⟨s, s1, h1, h2, _, _, h5, _⟩ := Ex.visited2
  exact ⟨s, s1, h1, h2, h5, (C09_truncation_keeps_best Ex.env_valid h1 h2 (by decide +kernel)).1⟩

variable [UniformCost C]

/-- **C10** after every selection step the elite (individuals with their costs) is a best prefix of
all (individual, cost) pairs of the run so far, the very first one counted twice; every recorded
cost is the value the cost function returned for that individual. -/
theorem C10_elite_is_best_so_far (hv : env.Valid) (he : 0 ≤ e.eliteLen)
    (h : Visited env e f ftol pm ρ t s) (hs : truncation env e s = .ok s1) :
    ∃ first, s.log.flatten.head? = some first ∧
      IsBestPrefix (s.log.flatten ++ [first]) (s1.elite.rows.zip s1.evalsElite) ∧
      s1.elite.rows.length = s1.evalsElite.length ∧
      s1.elite.rows.length = min e.eliteLen.toNat (s.log.flatten.length + 1) ∧
      Faithful f s.log.flatten := by
  obtain ⟨ha, hi⟩ := eliteInv_visited hv he h
  obtain ⟨first, rest, h1, h2, h3, h4, h5, h6⟩ := eliteInv_trunc hv he ha hi hs
  refine ⟨first, h1, ⟨rest, h2, h3⟩, h5, ?_, (logInv_visited hv h).faithful⟩
  have hlen := h2.length_eq
  simp only [List.length_append, List.length_zip, ← h5, min_self, List.length_cons,
    List.length_nil] at hlen h4
  rcases h4 with h4 | h4
  · omega
  · rw [h4, List.length_nil] at hlen; omega

/-- **C11** with at least one elite slot, after every selection step some elite individual was
really evaluated with the recorded cost, and no cost returned so far in the run is smaller. -/
theorem C11_best_never_lost (hv : env.Valid) (he : 1 ≤ e.eliteLen)
    (h : Visited env e f ftol pm ρ t s) (hs : truncation env e s = .ok s1) :
    ∃ r c, (r, c) ∈ s1.elite.rows.zip s1.evalsElite ∧ (r, c) ∈ s.log.flatten ∧
      ∀ p ∈ s.log.flatten, lt p.2 c = false ∧ (IsNum p.2 → IsNum c) := by
  obtain ⟨first, h1, ⟨rest, h2, h3⟩, h4, h5, _⟩ := C10_elite_is_best_so_far hv (by omega) h hs
  have hne : s1.elite.rows.zip s1.evalsElite ≠ [] := by
    intro hn
    have := congrArg List.length hn
    simp only [List.length_zip, ← h4, min_self, List.length_nil] at this
    omega
  obtain ⟨⟨r, c⟩, tl, htl⟩ := List.exists_cons_of_ne_nil hne
  rw [htl, List.cons_append] at h2 h3
  have hfirst : first ∈ s.log.flatten := by
    cases hl : s.log.flatten with
    | nil => rw [hl] at h1; simp at h1
    | cons a as => rw [hl] at h1; simp at h1; simp [h1]
  have hmem : (r, c) ∈ s.log.flatten := by
    have := h2.subset (List.mem_cons_self)
    rcases List.mem_append.1 this with h | h
    · exact h
    · simp only [List.mem_singleton] at h; rw [h]; exact hfirst
  refine ⟨r, c, by rw [htl]; exact List.mem_cons_self, hmem, ?_⟩
  intro p hp
  have := h2.symm.subset (List.mem_append_left _ hp)
  rcases List.mem_cons.1 this with hx | hx
  · rw [hx]; exact ⟨lt_irrefl' _, id⟩
  · exact (List.pairwise_cons.1 h3).1 p hx

example : ∃ s s1, Visited Ex.env Ex.eda Ex.cost 0 Ex.pm Ex.rand 2 s ∧
    truncation Ex.env Ex.eda s = .ok s1 ∧ s1.elite.rows = [[1, 1]] ∧ s1.evalsElite = [5] ∧
    ∃ r c, (r, c) ∈ s1.elite.rows.zip s1.evalsElite ∧ (r, c) ∈ s.log.flatten := by
  obtain ⟨s, s1, h1, h2, h3, h4, _⟩ := Ex.visited2
  obtain ⟨r, c, a, b, _⟩ := C11_best_never_lost Ex.env_valid (by decide +kernel) h1 h2
  exact ⟨s, s1, h1, h2, h3, h4, r, c, a, b⟩

end general

section field
variable {K : Type} [Field K] [LinearOrder K]
variable {R σ Ω : Type} {env : Env K} {e : Eda R σ Ω} {f : ℕ → R → K} {ftol : K} {pm : σ}
variable {ρ : Rand Ω} {t : ℕ} {s s1 : St R K σ}

theorem sorted_prefix_unique {α : Type} {l kept rest : List (α × K)}
    (h1 : (kept ++ rest).Perm l) (h2 : (kept ++ rest).Pairwise (fun a b => LeNanLast a.2 b.2)) :
    kept.map Prod.snd = ((l.map Prod.snd).insertionSort (· ≤ ·)).take kept.length := by
  have hs : ((kept ++ rest).map Prod.snd).Pairwise (· ≤ ·) := by
    rw [List.pairwise_map]
    refine h2.imp ?_
    intro a b h
    have := h.1
    simpa using this
  have hp : ((l.map Prod.snd).insertionSort (· ≤ ·)).Perm ((kept ++ rest).map Prod.snd) :=
    (List.perm_insertionSort _ _).trans (h1.map _).symm
  have := List.Perm.eq_of_pairwise' (List.pairwise_insertionSort (· ≤ ·) (l.map Prod.snd)) hs hp
  rw [this, List.map_append, List.take_left' (by simp)]

/-- **C10** for costs in an ordered field: the elite costs are exactly the `elite_length` smallest
of all costs returned so far (first one counted twice), in ascending order. -/
theorem C10_elite_costs (hv : env.Valid) (he : 0 ≤ e.eliteLen)
    (h : Visited env e f ftol pm ρ t s) (hs : truncation env e s = .ok s1) :
    ∃ first, s.log.flatten.head? = some first ∧
      s1.evalsElite =
        (((s.log.flatten ++ [first]).map Prod.snd).insertionSort (· ≤ ·)).take e.eliteLen.toNat := by
  obtain ⟨first, h1, ⟨rest, h2, h3⟩, h4, h5, _⟩ := C10_elite_is_best_so_far hv he h hs
  refine ⟨first, h1, ?_⟩
  have := sorted_prefix_unique h2 h3
  rw [List.map_snd_zip (by omega)] at this
  rw [this]
  simp only [List.length_zip, ← h4, min_self, h5]
  have hl : (((s.log.flatten ++ [first]).map Prod.snd).insertionSort (· ≤ ·)).length =
      s.log.flatten.length + 1 := by
    rw [List.length_insertionSort, List.length_map, List.length_append, List.length_singleton]
  rw [← hl, ← List.take_eq_take_min]

example : ∃ s s1, Visited Ex.env Ex.eda Ex.cost 0 Ex.pm Ex.rand 2 s ∧
    truncation Ex.env Ex.eda s = .ok s1 ∧ s1.evalsElite = [5] ∧
    ∃ first, s.log.flatten.head? = some first ∧
      s1.evalsElite = (((s.log.flatten ++ [first]).map Prod.snd).insertionSort (· ≤ ·)).take 1 := by
  obtain ⟨s, s1, h1, h2, h3, h4, _⟩ := Ex.visited2
  have hk : Ex.eda.eliteLen.toNat = 1 := by decide +kernel
  obtain ⟨first, a, b⟩ := C10_elite_costs Ex.env_valid (by decide +kernel) h1 h2
  exact ⟨s, s1, h1, h2, h4, first, a, by rw [hk] at b; exact b⟩

end field

end Verif
