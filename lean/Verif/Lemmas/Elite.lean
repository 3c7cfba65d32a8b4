/- The elite is a best prefix of everything evaluated. -/
import Verif.Lemmas.Loop
import Verif.Model.Costs

namespace Verif

open PyCost Spec

section prefix_
variable {α : Type} (r : α → α → Prop)

theorem top_prefix [Std.Total r] [IsTrans α r] {W : List α} (hW : W.Pairwise r) {y : α} {k : ℕ}
    [DecidablePred (fun x => r x y)] (hk : k ≤ W.countP (fun x => decide (r x y))) :
    ∀ x ∈ W.take k, r x y := by
  intro x hx
  by_contra hxy
  have hsplit : W.countP (fun x => decide (r x y)) =
      (W.take k).countP (fun x => decide (r x y)) + (W.drop k).countP (fun x => decide (r x y)) := by
    conv_lhs => rw [← List.take_append_drop k W, List.countP_append]
  have hp := hW
  rw [← List.take_append_drop k W, List.pairwise_append] at hp
  have hdrop : (W.drop k).countP (fun x => decide (r x y)) = 0 := by
    rw [List.countP_eq_zero]
    intro z hz
    simp only [decide_eq_true_eq]
    intro hzy
    exact hxy (IsTrans.trans x z y (hp.2.2 x hx z hz) hzy)
  have hlt : (W.take k).countP (fun x => decide (r x y)) < k := by
    have h1 : (W.take k).countP (fun x => decide (r x y)) ≤ (W.take k).length :=
      List.countP_le_length
    have h2 : (W.take k).countP (fun x => decide (r x y)) ≠ (W.take k).length := by
      intro h
      rw [List.countP_eq_length] at h
      exact hxy (by simpa using h x hx)
    have h3 : (W.take k).length ≤ k := by simp
    omega
  omega

theorem merge_prefix [Std.Total r] [IsTrans α r] {A E D F W : List α} {k : ℕ}
    (hF : (E ++ D).Perm F) (hED : (E ++ D).Pairwise r) (hW : W.Pairwise r)
    (hWp : W.Perm (A ++ E)) (hk : k ≤ E.length ∨ D = []) :
    ∃ rest, (W.take k ++ rest).Perm (A ++ F) ∧ (W.take k ++ rest).Pairwise r ∧
      (k ≤ (W.take k).length ∨ rest = []) := by
  classical
  refine ⟨(W.drop k ++ D).insertionSort r, ?_, ?_, ?_⟩
  · have h1 : (W.take k ++ (W.drop k ++ D).insertionSort r).Perm (W.take k ++ (W.drop k ++ D)) :=
      List.Perm.append_left _ (List.perm_insertionSort r _)
    refine h1.trans ?_
    rw [← List.append_assoc, List.take_append_drop]
    refine (hWp.append_right D).trans ?_
    rw [List.append_assoc]
    exact hF.append_left A
  · rw [List.pairwise_append]
    refine ⟨hW.sublist (List.take_sublist _ _), List.pairwise_insertionSort r _, ?_⟩
    intro x hx z hz
    rw [List.mem_insertionSort, List.mem_append] at hz
    rcases hz with hz | hz
    · have hp := hW
      rw [← List.take_append_drop k W, List.pairwise_append] at hp
      exact hp.2.2 x hx z hz
    · rcases hk with hk | hk
      · refine top_prefix r hW ?_ x hx
        rw [hWp.countP_eq, List.countP_append]
        have : E.countP (fun x => decide (r x z)) = E.length := by
          rw [List.countP_eq_length]
          intro a ha
          rw [List.pairwise_append] at hED
          simpa using hED.2.2 a ha z hz
        omega
      · rw [hk] at hz; simp at hz
  · rcases le_or_gt k W.length with h | h
    · left; simp [h]
    · right
      have h1 : W.drop k = [] := by simp; omega
      have h2 : D = [] := by
        rcases hk with hk | hk
        · have := hWp.length_eq
          simp at this
          omega
        · exact hk
      rw [h1, h2]
      rfl

end prefix_

variable {R C σ Ω : Type} [PyCost C] [LawfulCost C]

/-- Order on (individual, cost) pairs by cost, NaN last. -/
def pairLe (a b : R × C) : Prop := LeNanLast a.2 b.2

instance : Std.Total (pairLe (R := R) (C := C)) := ⟨fun a b => leNanLast_total a.2 b.2⟩
instance : IsTrans (R × C) pairLe := ⟨fun _ _ _ => leNanLast_trans⟩

/-- At the loop head the elite is a best prefix of all earlier calls (plus the first call once
more). -/
def EliteInv (e : Eda R σ Ω) (s : St R C σ) : Prop :=
  ∃ pre D first, s.log = pre ++ [s.gen.rows.zip s.evals] ∧ s.log.flatten.head? = some first ∧
    (s.elite.rows.zip s.evalsElite ++ D).Perm (pre.flatten ++ [first]) ∧
    (s.elite.rows.zip s.evalsElite ++ D).Pairwise pairLe ∧
    (e.eliteLen.toNat ≤ (s.elite.rows.zip s.evalsElite).length ∨ D = [])

omit [LawfulCost C] in
theorem eliteInv_start [UniformCost C] {env : Env C} (hv : env.Valid)
    {e : Eda R σ Ω} {f : ℕ → R → C} {pm : σ} {ρ : Rand Ω} {s0 : St R C σ}
    (h : start env e f pm ρ = .ok s0) : EliteInv e s0 := by
  obtain ⟨ev, r0, c0, best, i, hs⟩ := start_ok h
  have hcalls := (check_calls hv hs.check).2
  have hst := check_stored hv hs.check
  have hz : ev.calls = s0.gen.rows.zip s0.evals := by rw [hcalls, hs.evals, hst]
  refine ⟨[], [], (r0, c0), ?_, ?_, ?_, ?_, Or.inr rfl⟩
  · rw [hs.log, hz]; rfl
  · rw [hs.log, hz]
    simp only [List.flatten_cons, List.flatten_nil, List.append_nil]
    have hr := hs.row0
    have hc := hs.cost0
    rw [hs.evals]
    cases h1 : s0.gen.rows with
    | nil => rw [h1] at hr; simp at hr
    | cons a as =>
      cases h2 : ev.stored with
      | nil => rw [h2] at hc; simp at hc
      | cons b bs =>
        rw [h1] at hr; rw [h2] at hc
        simp at hr hc
        simp [hr, hc]
  · rw [hs.elite, hs.evalsElite]; simp
  · rw [hs.elite, hs.evalsElite]; simp

/-- One selection step keeps the best of everything evaluated so far. -/
theorem eliteInv_trunc {env : Env C} (hv : env.Valid) {e : Eda R σ Ω} (he : 0 ≤ e.eliteLen)
    {s s1 : St R C σ} (ha : Aligned s) (hi : EliteInv e s)
    (h : truncation env e s = .ok s1) :
    ∃ first rest, s.log.flatten.head? = some first ∧
      (s1.elite.rows.zip s1.evalsElite ++ rest).Perm (s.log.flatten ++ [first]) ∧
      (s1.elite.rows.zip s1.evalsElite ++ rest).Pairwise pairLe ∧
      (e.eliteLen.toNat ≤ (s1.elite.rows.zip s1.evalsElite).length ∨ rest = []) ∧
      s1.elite.rows.length = s1.evalsElite.length ∧
      s1.elite.rows.length ≤ e.eliteLen.toNat := by
  obtain ⟨pre, D, first, h1, h2, h3, h4, h5⟩ := hi
  obtain ⟨P, p1, p2, _, _, p5, p6⟩ := truncation_ok hv ha h
  have hz : s1.elite.rows.zip s1.evalsElite = P.take e.eliteLen.toNat := by
    rw [p5, p6, ← List.zip_of_prod rfl rfl]
    unfold sliceLen
    rw [if_pos he, ← List.take_eq_take_min]
  rw [poolOf_eq ha] at p1
  obtain ⟨rest, r1, r2, r3⟩ := merge_prefix pairLe h3 h4 p2 p1 h5
  refine ⟨first, rest, h2, ?_, ?_, ?_, ?_, ?_⟩
  · rw [hz]
    refine r1.trans ?_
    rw [h1, List.flatten_append]
    simp only [List.flatten_cons, List.flatten_nil, List.append_nil]
    rw [← List.append_assoc]
    exact List.Perm.append_right _ List.perm_append_comm
  · rw [hz]; exact r2
  · rw [hz]; exact r3
  · rw [p5, p6]; simp
  · rw [p5]
    unfold sliceLen
    rw [if_pos he]
    simp

theorem eliteInv_step [UniformCost C] {env : Env C} (hv : env.Valid)
    {e : Eda R σ Ω} (he : 0 ≤ e.eliteLen) {f : ℕ → R → C} {ftol : C} {ρ : Rand Ω}
    {noise : Gen R → Except PyErr (Gen R)} {t : ℕ} {s s' : St R C σ} {b : Bool}
    (ha : Aligned s) (hi : EliteInv e s) (h : step env e f ftol ρ noise t s = .ok (s', b)) :
    EliteInv e s' := by
  obtain ⟨s1, noisy, ev, best, i, ind, hs⟩ := step_ok h
  have hcalls := (check_calls hv hs.check).2
  have hst := check_stored hv hs.check
  obtain ⟨first, rest, h1, h2, h3, h4, _, _⟩ := eliteInv_trunc hv he ha hi hs.trunc
  refine ⟨s.log, rest, first, ?_, ?_, ?_, ?_, ?_⟩
  · rw [hs.log, hcalls, hs.evals, hst]
  · rw [hs.log, List.flatten_append, List.head?_append, h1]; rfl
  · rw [hs.elite, hs.evalsElite]; exact h2
  · rw [hs.elite, hs.evalsElite]; exact h3
  · rw [hs.elite, hs.evalsElite]; exact h4

theorem eliteInv_visited [UniformCost C] {env : Env C} (hv : env.Valid)
    {e : Eda R σ Ω} (he : 0 ≤ e.eliteLen) {f : ℕ → R → C} {ftol : C} {pm : σ} {ρ : Rand Ω} {t : ℕ}
    {s : St R C σ} (h : Visited env e f ftol pm ρ t s) : Aligned s ∧ EliteInv e s :=
  visited_inv (fun s => Aligned s ∧ EliteInv e s)
    (fun _ h => ⟨start_aligned hv h, eliteInv_start hv h⟩)
    (fun _ _ _ _ _ hi _ h => ⟨step_aligned hv hi.1 h, eliteInv_step hv he hi.1 hi.2 h⟩) h

end Verif
