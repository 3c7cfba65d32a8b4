/-
A run depends on the cost function only through the calls that were made.
-/
import Verif.Spec.BlackBox
import Verif.Lemmas.Core

set_option linter.unusedSectionVars false

namespace Verif

open PyCost Spec

section
variable {R C σ Ω : Type} [PyCost C]

theorem callRows_congr {f f' : ℕ → R → C} {k : ℕ} {rows : List R}
    (h : ∀ j r, rows[j]? = some r → f (k + j) r = f' (k + j) r) : callRows f k rows = callRows f' k rows := by
  unfold callRows
  apply List.ext_getElem?
  intro j
  rw [List.getElem?_mapIdx, List.getElem?_mapIdx]
  cases hj : rows[j]? with
  | none => rfl
  | some r => simp [h j r hj]

theorem cut_congr {f f' : ℕ → R → C} (k : ℕ) (ns : List ℕ) : ∀ (o : ℕ) (l : List R),
    callRows f (k + o) l = callRows f' (k + o) l →
    ∀ c ∈ cut o ns l, callRows f (k + c.1) c.2 = callRows f' (k + c.1) c.2 := by
  induction ns with
  | nil => intro o l _ c hc; simp [cut] at hc
  | cons n ns ih =>
    intro o l h c hc
    have h0 : l = l.take n ++ l.drop n := (List.take_append_drop n l).symm
    rw [h0, callRows_append, callRows_append] at h
    obtain ⟨h1, h2⟩ := List.append_inj h (by rw [length_callRows, length_callRows])
    rcases List.mem_cons.1 hc with rfl | hc
    · exact h1
    · rcases Nat.lt_or_ge l.length n with hl | hl
      · refine ih (o + n) (l.drop n) ?_ c hc
        rw [List.drop_eq_nil_of_le hl.le]
        rfl
      · refine ih (o + n) (l.drop n) ?_ c hc
        rw [List.length_take, Nat.min_eq_left hl] at h2
        rw [← Nat.add_assoc]
        exact h2

theorem check_congr {env : Env C} (hv : env.Valid) (par : Bool) {f f' : ℕ → R → C} {k : ℕ} {rows : List R}
    (h : callRows f k rows = callRows f' k rows) :
    checkGeneration env par f k rows = checkGeneration env par f' k rows := by
  unfold checkGeneration
  cases par with
  | true =>
    simp only [if_true]
    rcases lt_or_ge rows.length env.cpu with hl | hl
    · rw [parallelApply_error _ _ _ _ _ hl (hv.sched k), parallelApply_error _ _ _ _ _ hl (hv.sched k)]
    · rw [parallelApply_ok _ _ _ _ _ hv.cpu hl (hv.sched k), parallelApply_ok _ _ _ _ _ hv.cpu hl (hv.sched k), h]
      congr 3
      apply List.map_congr_left
      intro c hc
      rw [cut_congr k _ 0 rows h c hc]
  | false =>
    simp only [Bool.false_eq_true, if_false]
    by_cases hn : rows = []
    · rw [hn, applyAlong_nil, applyAlong_nil]
    · rw [applyAlong_ok _ _ _ hn, applyAlong_ok _ _ _ hn, h]

variable {env : Env C} {e : Eda R σ Ω} {f f' : ℕ → R → C} {ftol : C} {pm : σ} {ρ : Rand Ω}

theorem _root_.Verif.Spec.SameAnswers.mono {q : List R} {N M : ℕ} (h : SameAnswers f f' q N) (hM : M ≤ N) : SameAnswers f f' q M :=
  fun j hj => h j (by omega)

theorem _root_.Verif.Spec.SameAnswers.append {q q' : List R} {N : ℕ} (h : SameAnswers f f' (q ++ q') N) (hN : N ≤ q.length) :
    SameAnswers f f' q N := fun j hj r hr => h j hj r (by rw [List.getElem?_append_left (by omega)]; exact hr)

theorem asked_append {s s' : St R C σ} {calls : List (R × C)} (h : s'.log = s.log ++ [calls]) :
    queries s' = queries s ++ calls.map Prod.fst := by
  simp [queries, h]

theorem asked_length (s : St R C σ) : (queries s).length = s.log.flatten.length := by
  unfold queries; rw [List.length_map]

theorem calls_fst (hv : env.Valid) {par : Bool} {k : ℕ} {rows : List R} {ev : Evaluated R C}
    (h : checkGeneration env par f k rows = .ok ev) : ev.calls.map Prod.fst = rows := by
  rw [(check_calls hv h).2, List.map_fst_zip]
  rw [length_callRows]

theorem check_same (hv : env.Valid) {par : Bool} {q : List R} {rows : List R}
    (h : SameAnswers f f' (q ++ rows) (q ++ rows).length) :
    checkGeneration env par f q.length rows = checkGeneration env par f' q.length rows := by
  refine check_congr hv par (callRows_congr fun j r hj => ?_)
  have hl : j < rows.length := (List.getElem?_eq_some_iff.1 hj).1
  refine h (q.length + j) (by rw [List.length_append]; omega) r ?_
  rw [List.getElem?_append_right (by omega), Nat.add_sub_cancel_left]
  exact hj

theorem start_asked (hv : env.Valid) {s0 : St R C σ} (h : start env e f pm ρ = .ok s0) : queries s0 = s0.gen.rows := by
  obtain ⟨ev, r0, c0, best, i, hs⟩ := start_ok h
  simp only [queries, hs.log, List.flatten_cons, List.flatten_nil, List.append_nil]
  exact calls_fst hv hs.check

theorem step_asked (hv : env.Valid) {noise : Gen R → Except PyErr (Gen R)} {t : ℕ} {s s' : St R C σ} {b : Bool}
    (h : step env e f ftol ρ noise t s = .ok (s', b)) : queries s' = queries s ++ s'.gen.rows := by
  obtain ⟨s1, noisy, ev, best, i, ind, hs⟩ := step_ok h
  rw [asked_append hs.log, calls_fst hv hs.check]

theorem start_causal (hv : env.Valid) {s0 : St R C σ} (h : start env e f pm ρ = .ok s0)
    (hq : SameAnswers f f' (queries s0) (queries s0).length) : start env e f' pm ρ = .ok s0 := by
  have ha := start_asked hv h
  obtain ⟨ev, r0, c0, best, i, hs⟩ := start_ok h
  rw [← h]
  unfold start
  rw [hs.init]
  simp only
  rw [ha] at hq
  have := check_same (q := []) (par := e.parallel) hv hq
  simp only [List.length_nil] at this
  rw [this]

theorem step_causal (hv : env.Valid) {noise : Gen R → Except PyErr (Gen R)} {t : ℕ} {s s' : St R C σ} {b : Bool}
    (h : step env e f ftol ρ noise t s = .ok (s', b)) (hq : SameAnswers f f' (queries s') (queries s').length) :
    step env e f' ftol ρ noise t s = .ok (s', b) := by
  have ha := step_asked hv h
  obtain ⟨s1, noisy, ev, best, i, ind, hs⟩ := step_ok h
  rw [ha] at hq
  have := check_same (par := e.parallel) hv hq
  rw [asked_length] at this
  obtain ⟨f1, f2, f3, f4, f5, f6⟩ := truncation_fields hs.trunc
  rw [← h]
  unfold step
  rw [hs.trunc]
  simp only [hs.noise, f3, hs.update, hs.sample, f6]
  rw [this]

theorem step_next (hv : env.Valid) {noise : Gen R → Except PyErr (Gen R)} {t : ℕ} {s s' s'' : St R C σ} {b b' : Bool}
    (h : step env e f ftol ρ noise t s = .ok (s', b)) (h' : step env e f' ftol ρ noise t s = .ok (s'', b')) :
    queries s' = queries s'' := by
  rw [step_asked hv h, step_asked hv h']
  obtain ⟨s1, noisy, ev, best, i, ind, hs⟩ := step_ok h
  obtain ⟨s1', noisy', ev', best', i', ind', hs'⟩ := step_ok h'
  have e1 := hs.trunc.symm.trans hs'.trunc
  obtain rfl := Except.ok.inj e1
  have e2 := hs.noise.symm.trans hs'.noise
  obtain rfl := Except.ok.inj e2
  have e3 := Except.ok.inj (hs.update.symm.trans hs'.update)
  have e4 := hs.sample
  rw [e3, hs'.sample] at e4
  rw [Except.ok.inj e4]

theorem loop_asked (hv : env.Valid) {noise : Gen R → Except PyErr (Gen R)} (n : ℕ) : ∀ {t : ℕ} {s s' : St R C σ},
    loop env e f ftol ρ noise n t s = .ok s' → ∃ q, queries s' = queries s ++ q := by
  induction n with
  | zero => intro t s s' h; simp only [loop, Except.ok.injEq] at h; exact ⟨[], by rw [h]; simp⟩
  | succ n ih =>
    intro t s s' h
    unfold loop at h
    split at h
    · cases h
    · rename_i s2 hs
      obtain rfl := Except.ok.inj h
      exact ⟨_, step_asked hv hs⟩
    · rename_i s2 hs
      obtain ⟨q, hq⟩ := ih h
      exact ⟨s2.gen.rows ++ q, by rw [hq, step_asked hv hs, List.append_assoc]⟩

theorem loop_causal (hv : env.Valid) {noise : Gen R → Except PyErr (Gen R)} (n : ℕ) : ∀ {t : ℕ} {s s' : St R C σ},
    loop env e f ftol ρ noise n t s = .ok s' → SameAnswers f f' (queries s') (queries s').length →
    loop env e f' ftol ρ noise n t s = .ok s' := by
  induction n with
  | zero => intro t s s' h _; exact h
  | succ n ih =>
    intro t s s' h hq
    unfold loop at h ⊢
    split at h
    · cases h
    · rename_i s2 hs
      obtain rfl := Except.ok.inj h
      rw [step_causal hv hs hq]
    · rename_i s2 hs
      obtain ⟨q, ha⟩ := loop_asked hv n h
      rw [step_causal hv hs]
      · exact ih h hq
      · rw [ha] at hq
        exact (hq.mono (by simp)).append le_rfl

/-- The next question is determined by the answers so far. -/
theorem loop_next (hv : env.Valid) {noise : Gen R → Except PyErr (Gen R)} (n : ℕ) : ∀ {t : ℕ} {s s1 s2 : St R C σ},
    loop env e f ftol ρ noise n t s = .ok s1 → loop env e f' ftol ρ noise n t s = .ok s2 →
    ∀ {N : ℕ}, SameAnswers f f' (queries s1) N → (queries s1)[N]? = (queries s2)[N]? := by
  induction n with
  | zero =>
    intro t s s1 s2 h h' N _
    simp only [loop, Except.ok.injEq] at h h'
    rw [← h, ← h']
  | succ n ih =>
    intro t s s1 s2 h h' N hN
    obtain ⟨q1, hq1⟩ : ∃ s' b q, step env e f ftol ρ noise t s = .ok (s', b) ∧ queries s1 = queries s' ++ q := by
      unfold loop at h
      split at h
      · cases h
      · rename_i s2 hs
        obtain rfl := Except.ok.inj h
        exact ⟨_, _, [], hs, by simp⟩
      · rename_i s2 hs
        obtain ⟨q, hq⟩ := loop_asked hv n h
        exact ⟨_, _, q, hs, hq⟩
    obtain ⟨b1, q1, hs1, ha1⟩ := hq1
    rename_i s1'
    obtain ⟨s2', b2, q2, hs2, ha2⟩ : ∃ s' b q, step env e f' ftol ρ noise t s = .ok (s', b) ∧
        queries s2 = queries s' ++ q := by
      unfold loop at h'
      split at h'
      · cases h'
      · rename_i s2 hs
        obtain rfl := Except.ok.inj h'
        exact ⟨_, _, [], hs, by simp⟩
      · rename_i s2 hs
        obtain ⟨q, hq⟩ := loop_asked hv n h'
        exact ⟨_, _, q, hs, hq⟩
    have hsame := step_next hv hs1 hs2
    rcases Nat.lt_or_ge N (queries s1').length with hlt | hge
    · rw [ha1, ha2, ← hsame, List.getElem?_append_left hlt, List.getElem?_append_left hlt]
    · have hc := step_causal hv hs1 (f' := f') (by
        rw [ha1] at hN
        exact (hN.mono hge).append le_rfl)
      unfold loop at h h'
      rw [hs1] at h
      rw [hc] at h'
      cases b1 with
      | true =>
        simp only [Except.ok.injEq] at h h'
        rw [← h, ← h']
      | false =>
        simp only at h h'
        exact ih h h' hN

theorem minimize_next (hv : env.Valid) {res res' : EdaResult R C} {s s' : St R C σ}
    (h : minimize env e f ftol pm ρ = .ok (res, s)) (h' : minimize env e f' ftol pm ρ = .ok (res', s')) {N : ℕ}
    (hN : SameAnswers f f' (queries s) N) : (queries s)[N]? = (queries s')[N]? := by
  obtain ⟨s0, noise, h0, hn, hl, _⟩ := minimize_ok h
  obtain ⟨s0', noise', h0', hn', hl', _⟩ := minimize_ok h'
  obtain rfl := Except.ok.inj (hn.symm.trans hn')
  obtain ⟨q, hq⟩ := loop_asked hv _ hl
  obtain ⟨q', hq'⟩ := loop_asked hv _ hl'
  have hsame : queries s0 = queries s0' := by
    rw [start_asked hv h0, start_asked hv h0']
    obtain ⟨ev, r0, c0, best, i, hs⟩ := start_ok h0
    obtain ⟨ev', r0', c0', best', i', hs'⟩ := start_ok h0'
    rw [Except.ok.inj (hs.init.symm.trans hs'.init)]
  rcases Nat.lt_or_ge N (queries s0).length with hlt | hge
  · rw [hq, hq', ← hsame, List.getElem?_append_left hlt, List.getElem?_append_left hlt]
  · have := start_causal hv h0 (f' := f') (by
      rw [hq] at hN
      exact (hN.mono hge).append le_rfl)
    obtain rfl := Except.ok.inj (this.symm.trans h0')
    exact loop_next hv _ hl hl' hN

theorem minimize_causal (hv : env.Valid) {res : EdaResult R C} {s : St R C σ}
    (h : minimize env e f ftol pm ρ = .ok (res, s)) (hq : SameAnswers f f' (queries s) (queries s).length) :
    minimize env e f' ftol pm ρ = .ok (res, s) := by
  obtain ⟨s0, noise, h0, hn, hl, hr⟩ := minimize_ok h
  obtain ⟨q, ha⟩ := loop_asked hv _ hl
  unfold minimize
  rw [start_causal hv h0 (by rw [ha] at hq; exact (hq.mono (by simp)).append le_rfl), hn]
  simp only
  rw [loop_causal hv _ hl hq, hr]

theorem visited_causal (hv : env.Valid) {t : ℕ} {s : St R C σ} (h : Visited env e f ftol pm ρ t s)
    (hq : SameAnswers f f' (queries s) (queries s).length) : Visited env e f' ftol pm ρ t s := by
  induction h with
  | first h => exact .first (start_causal hv h hq)
  | next _ hn hs ih =>
    refine .next (ih ?_) hn (step_causal hv hs hq)
    rw [step_asked hv hs] at hq
    exact (hq.mono (by simp)).append le_rfl

end

end Verif
