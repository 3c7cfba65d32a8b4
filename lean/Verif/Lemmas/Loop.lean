/- Invariants of the EDA loop: records of calls, history, best individual, early stopping. -/
import Verif.Lemmas.Core

namespace Verif

open PyCost Spec

variable {R C σ Ω : Type} [PyCost C]

/-! ### The record of calls -/

omit [PyCost C] in
theorem faithful_zip (f : ℕ → R → C) (rows : List R) :
    Faithful f (rows.zip (callRows f 0 rows)) := by
  intro k r c h
  rw [List.getElem?_zip_eq_some] at h
  rw [callRows_getElem?] at h
  simp only [h.1, Option.map_some, Option.some.injEq, zero_add] at h
  exact h.2.symm

omit [PyCost C] in
theorem faithful_append {f : ℕ → R → C} {calls : List (R × C)} (h : Faithful f calls)
    (rows : List R) :
    Faithful f (calls ++ rows.zip (callRows f calls.length rows)) := by
  intro k r c hk
  rcases lt_or_ge k calls.length with hl | hl
  · rw [List.getElem?_append_left hl] at hk
    exact h k r c hk
  · rw [List.getElem?_append_right hl, List.getElem?_zip_eq_some, callRows_getElem?] at hk
    simp only [hk.1, Option.map_some, Option.some.injEq] at hk
    rw [← hk.2]
    congr 1
    omega

/-- Everything that holds about the record of calls at any time of a run. -/
structure LogInv (f : ℕ → R → C) (s : St R C σ) : Prop where
  faithful : Faithful f s.log.flatten
  last : ∃ pre, s.log = pre ++ [s.gen.rows.zip s.evals] ∧ s.gen.rows ≠ [] ∧
    s.evals.length = s.gen.rows.length ∧ s.evals = callRows f pre.flatten.length s.gen.rows
  len : s.log.length = s.history.length
  mins : ∀ (t : ℕ) (h : C) (batch : List (R × C)), s.history[t]? = some h → s.log[t]? = some batch →
    IsMinOf h (batch.map Prod.snd)

theorem isMinOf_pyMin [LawfulCost C] {l : List C} {b : C} (h : pyMin l = some b) : IsMinOf b l :=
  ⟨pyMin_mem h, pyMin_le h⟩

theorem logInv_start [LawfulCost C] [UniformCost C] {env : Env C} (hv : env.Valid)
    {e : Eda R σ Ω} {f : ℕ → R → C} {pm : σ} {ρ : Rand Ω} {s0 : St R C σ}
    (h : start env e f pm ρ = .ok s0) : LogInv f s0 := by
  obtain ⟨ev, r0, c0, best, i, hs⟩ := start_ok h
  obtain ⟨hne, hcalls⟩ := check_calls hv hs.check
  have hst := check_stored hv hs.check
  have hz : ev.calls = s0.gen.rows.zip s0.evals := by rw [hcalls, hs.evals, hst]
  refine ⟨?_, ⟨[], ?_, hne, ?_, ?_⟩, ?_, ?_⟩
  · rw [hs.log]; simp only [List.flatten_cons, List.flatten_nil, List.append_nil, hcalls]
    exact faithful_zip f _
  · rw [hs.log, hz]; rfl
  · rw [hs.evals, hst, length_callRows]
  · rw [hs.evals, hst]; rfl
  · rw [hs.log, hs.history]; rfl
  · intro t h batch ht hb
    rw [hs.history] at ht
    rw [hs.log] at hb
    cases t with
    | zero =>
      simp only [List.getElem?_cons_zero, Option.some.injEq] at ht hb
      rw [← hb, ← ht, hcalls, List.map_snd_zip (by rw [length_callRows]), ← hst]
      exact isMinOf_pyMin hs.minEq
    | succ t => simp at ht

theorem logInv_step [LawfulCost C] [UniformCost C] {env : Env C} (hv : env.Valid)
    {e : Eda R σ Ω} {f : ℕ → R → C} {ftol : C} {ρ : Rand Ω}
    {noise : Gen R → Except PyErr (Gen R)} {t : ℕ} {s s' : St R C σ} {b : Bool}
    (hi : LogInv f s) (h : step env e f ftol ρ noise t s = .ok (s', b)) : LogInv f s' := by
  obtain ⟨s1, noisy, ev, best, i, ind, hs⟩ := step_ok h
  obtain ⟨hne, hcalls⟩ := check_calls hv hs.check
  have hst := check_stored hv hs.check
  refine ⟨?_, ⟨s.log, ?_, hne, ?_, ?_⟩, ?_, ?_⟩
  · rw [hs.log, List.flatten_append]
    simp only [List.flatten_cons, List.flatten_nil, List.append_nil]
    rw [hcalls]
    exact faithful_append hi.faithful _
  · rw [hs.log, hcalls, hs.evals, hst]
  · rw [hs.evals, hst, length_callRows]
  · rw [hs.evals, hst]
  · rw [hs.log, hs.history]; simp [hi.len]
  · intro t h batch ht hb
    rw [hs.history] at ht
    rw [hs.log] at hb
    rcases lt_or_ge t s.history.length with hl | hl
    · rw [List.getElem?_append_left hl] at ht
      rw [List.getElem?_append_left (by rw [hi.len]; exact hl)] at hb
      exact hi.mins t h batch ht hb
    · rw [List.getElem?_append_right hl] at ht
      rw [List.getElem?_append_right (by rw [hi.len]; exact hl), hi.len] at hb
      cases hx : t - s.history.length with
      | zero =>
        rw [hx] at ht hb
        simp only [List.getElem?_cons_zero, Option.some.injEq] at ht hb
        rw [← hb, ← ht, hcalls, List.map_snd_zip (by rw [length_callRows]), ← hst]
        exact isMinOf_pyMin hs.minEq
      | succ n => rw [hx] at ht; simp at ht

theorem logInv_minimize [LawfulCost C] [UniformCost C] {env : Env C} (hv : env.Valid)
    {e : Eda R σ Ω} {f : ℕ → R → C} {ftol : C} {pm : σ} {ρ : Rand Ω} {res : EdaResult R C}
    {s : St R C σ} (h : minimize env e f ftol pm ρ = .ok (res, s)) : LogInv f s :=
  minimize_inv (LogInv f) (fun _ => logInv_start hv) (fun _ _ _ _ _ hi _ => logInv_step hv hi) h

theorem logInv_visited [LawfulCost C] [UniformCost C] {env : Env C} (hv : env.Valid)
    {e : Eda R σ Ω} {f : ℕ → R → C} {ftol : C} {pm : σ} {ρ : Rand Ω} {t : ℕ}
    {s : St R C σ} (h : Visited env e f ftol pm ρ t s) : LogInv f s :=
  visited_inv (LogInv f) (fun _ => logInv_start hv) (fun _ _ _ _ _ hi _ => logInv_step hv hi) h

/-! ### The best cost as a function of the history -/

theorem bestAfter_append (ftol : C) (h : List C) (x b : C) (hb : bestAfter ftol h = some b) :
    bestAfter ftol (h ++ [x]) = some (if lt x (mulTol b ftol) then x else b) := by
  cases h with
  | nil => simp [bestAfter] at hb
  | cons a as =>
    simp only [bestAfter, Option.some.injEq] at hb
    simp only [List.cons_append, bestAfter, List.foldl_append, List.foldl_cons, List.foldl_nil, hb]

theorem bestAfter_mem (ftol : C) (h : List C) (b : C) (hb : bestAfter ftol h = some b) : b ∈ h := by
  induction h using List.reverseRecOn generalizing b with
  | nil => simp [bestAfter] at hb
  | append_singleton h x ih =>
    cases hh : bestAfter ftol h with
    | none =>
      cases h with
      | nil => simp only [List.nil_append, bestAfter, List.foldl_nil, Option.some.injEq] at hb
               simp [hb]
      | cons a as => simp [bestAfter] at hh
    | some b' =>
      rw [bestAfter_append ftol h x b' hh] at hb
      simp only [Option.some.injEq] at hb
      split at hb
      · simp [hb]
      · rw [← hb]
        have := ih b' hh
        simp [this]

theorem nonImproving_append (ftol : C) (h : List C) (x : C) (i : ℕ) (hi : i < h.length) :
    NonImproving ftol (h ++ [x]) i ↔ NonImproving ftol h i := by
  unfold NonImproving
  rw [List.take_append_of_le_length (by omega), List.getElem?_append_left hi]

theorem nonImproving_last (ftol : C) (h : List C) (x b : C) (hb : bestAfter ftol h = some b) :
    NonImproving ftol (h ++ [x]) h.length ↔ lt x (mulTol b ftol) = false := by
  unfold NonImproving
  rw [List.take_left, hb]
  simp

/-! ### Best individual -/

/-- What is known about `best_ind_global` at any time. -/
structure BestInv (ftol : C) (s : St R C σ) : Prop where
  best : bestAfter ftol s.history = some s.bestCost
  row : ∀ r, s.bestInd = .row r →
    (∃ (k : ℕ) (c : C), s.log.flatten[k]? = some (r, c) ∧ eq c s.bestCost = true) ∧
    ∃ j, 1 ≤ j ∧ j < s.history.length ∧ ¬ NonImproving ftol s.history j
  index : ∀ i, s.bestInd = .index i →
    (∃ (batch : List (R × C)) (r : R) (c : C), s.log[0]? = some batch ∧ batch[i]? = some (r, c) ∧ eq c s.bestCost = true) ∧
    (s.history.head? = some s.bestCost) ∧
    ∀ j, 1 ≤ j → j < s.history.length → NonImproving ftol s.history j

theorem bestInv_start [LawfulCost C] [UniformCost C] {env : Env C} (hv : env.Valid)
    {e : Eda R σ Ω} {f : ℕ → R → C} {ftol : C} {pm : σ} {ρ : Rand Ω} {s0 : St R C σ}
    (h : start env e f pm ρ = .ok s0) : BestInv ftol s0 := by
  have hlog := logInv_start hv h
  obtain ⟨ev, r0, c0, best, i, hs⟩ := start_ok h
  obtain ⟨hne, hcalls⟩ := check_calls hv hs.check
  have hst := check_stored hv hs.check
  refine ⟨?_, ?_, ?_⟩
  · rw [hs.history, hs.bestCost]; rfl
  · intro r hr; rw [hs.bestInd] at hr; simp at hr
  · intro j hj
    rw [hs.bestInd] at hj
    simp only [BestInd.index.injEq] at hj
    subst hj
    obtain ⟨c, hc, heq⟩ := whereFirst_some hs.pos
    rw [hst] at hc
    have hr := hc
    rw [callRows_getElem?] at hr
    cases hrow : s0.gen.rows[i]? with
    | none => rw [hrow] at hr; simp at hr
    | some r =>
      refine ⟨⟨ev.calls, r, c, by rw [hs.log]; rfl, ?_, by rw [hs.bestCost]; exact heq⟩, ?_, ?_⟩
      · rw [hcalls, List.getElem?_zip_eq_some]
        exact ⟨hrow, hc⟩
      · rw [hs.history, hs.bestCost]; rfl
      · intro j h1 h2; rw [hs.history] at h2; simp at h2; omega

theorem bestInv_step [LawfulCost C] [UniformCost C] {env : Env C} (hv : env.Valid)
    {e : Eda R σ Ω} {f : ℕ → R → C} {ftol : C} {ρ : Rand Ω}
    {noise : Gen R → Except PyErr (Gen R)} {t : ℕ} {s s' : St R C σ} {b : Bool}
    (hi : BestInv ftol s) (h : step env e f ftol ρ noise t s = .ok (s', b)) :
    BestInv ftol s' := by
  obtain ⟨s1, noisy, ev, best, i, ind, hs⟩ := step_ok h
  obtain ⟨hne, hcalls⟩ := check_calls hv hs.check
  have hst := check_stored hv hs.check
  have hlast := nonImproving_last ftol s.history best _ hi.best
  have hne' : s.history ≠ [] := by
    intro hn; have := hi.best; rw [hn] at this; simp [bestAfter] at this
  have hpos : 0 < s.history.length := List.length_pos_iff.2 hne'
  rcases hs.upd with ⟨h1, h2, h3, _, _⟩ | ⟨h1, h2, h3, _, _⟩
  · refine ⟨?_, ?_, ?_⟩
    · rw [hs.history, bestAfter_append ftol _ _ _ hi.best, h1, h2]; simp
    · intro r hr
      rw [h3] at hr
      simp only [BestInd.row.injEq] at hr
      subst hr
      obtain ⟨c, hc, heq⟩ := whereFirst_some hs.pos
      refine ⟨⟨s.log.flatten.length + i, c, ?_, by rw [h2]; exact heq⟩, s.history.length, hpos, ?_, ?_⟩
      · rw [hs.log, List.flatten_append, List.getElem?_append_right (by omega)]
        simp only [List.flatten_cons, List.flatten_nil, List.append_nil, Nat.add_sub_cancel_left]
        rw [hcalls, List.getElem?_zip_eq_some]
        exact ⟨hs.indRow, by rw [← hst]; exact hc⟩
      · rw [hs.history]; simp
      · rw [hs.history, hlast, h1]; simp
    · intro j hj; rw [h3] at hj; simp at hj
  · refine ⟨?_, ?_, ?_⟩
    · rw [hs.history, bestAfter_append ftol _ _ _ hi.best, h1, h2]; simp
    · intro r hr
      rw [h3] at hr
      obtain ⟨⟨k, c, hk, heq⟩, j, hj1, hj2, hj3⟩ := hi.row r hr
      refine ⟨⟨k, c, ?_, by rw [h2]; exact heq⟩, j, hj1, ?_, ?_⟩
      · rw [hs.log, List.flatten_append, List.getElem?_append_left]
        · exact hk
        · exact (List.getElem?_eq_some_iff.1 hk).1
      · rw [hs.history]; simp; omega
      · rw [hs.history, nonImproving_append _ _ _ _ hj2]; exact hj3
    · intro i' hi'
      rw [h3] at hi'
      obtain ⟨⟨batch, r, c, hb, hr, heq⟩, hh, hj⟩ := hi.index i' hi'
      refine ⟨⟨batch, r, c, ?_, hr, by rw [h2]; exact heq⟩, ?_, ?_⟩
      · rw [hs.log, List.getElem?_append_left]
        · exact hb
        · exact (List.getElem?_eq_some_iff.1 hb).1
      · rw [hs.history, h2, List.head?_append, hh]; rfl
      · intro j hj1 hj2
        rw [hs.history] at hj2 ⊢
        simp only [List.length_append, List.length_cons, List.length_nil] at hj2
        rcases lt_or_ge j s.history.length with hl | hl
        · rw [nonImproving_append _ _ _ _ hl]; exact hj j hj1 hl
        · have : j = s.history.length := by omega
          rw [this, hlast]; exact h1

theorem bestInv_minimize [LawfulCost C] [UniformCost C] {env : Env C} (hv : env.Valid)
    {e : Eda R σ Ω} {f : ℕ → R → C} {ftol : C} {pm : σ} {ρ : Rand Ω} {res : EdaResult R C}
    {s : St R C σ} (h : minimize env e f ftol pm ρ = .ok (res, s)) : BestInv ftol s :=
  minimize_inv (BestInv ftol) (fun _ => bestInv_start hv) (fun _ _ _ _ _ hi _ => bestInv_step hv hi) h

/-! ### Early stopping -/

/-- A window of `d` consecutive non-improving generations starting at generation `j ≥ 1`. -/
def Window (ftol : C) (h : List C) (j d : ℕ) : Prop :=
  1 ≤ j ∧ j + d ≤ h.length ∧ ∀ i, j ≤ i → i < j + d → NonImproving ftol h i

/-- `not_better` counts the trailing non-improving generations. -/
structure StreakInv (ftol : C) (s : St R C σ) : Prop where
  best : bestAfter ftol s.history = some s.bestCost
  nonneg : 0 ≤ s.notBetter
  lt : s.notBetter < s.history.length
  all : ∀ i, 1 ≤ i → i < s.history.length → (s.history.length : ℤ) - s.notBetter ≤ i →
    NonImproving ftol s.history i
  before : ∀ i : ℕ, (i : ℤ) + s.notBetter + 1 = s.history.length → 1 ≤ i →
    ¬ NonImproving ftol s.history i

theorem streakInv_start {env : Env C} {e : Eda R σ Ω} {f : ℕ → R → C} {ftol : C} {pm : σ}
    {ρ : Rand Ω} {s0 : St R C σ} (h : start env e f pm ρ = .ok s0) : StreakInv ftol s0 := by
  obtain ⟨ev, r0, c0, best, i, hs⟩ := start_ok h
  refine ⟨?_, ?_, ?_, ?_, ?_⟩
  · rw [hs.history, hs.bestCost]; rfl
  · rw [hs.notBetter]
  · rw [hs.notBetter, hs.history]; simp
  · intro i h1 h2; rw [hs.history] at h2; simp at h2; omega
  · intro i h1 h2; rw [hs.history, hs.notBetter] at h1; simp at h1; omega

theorem streakInv_step {env : Env C} {e : Eda R σ Ω} {f : ℕ → R → C} {ftol : C} {ρ : Rand Ω}
    {noise : Gen R → Except PyErr (Gen R)} {t : ℕ} {s s' : St R C σ} {b : Bool}
    (hi : StreakInv ftol s) (h : step env e f ftol ρ noise t s = .ok (s', b)) :
    StreakInv ftol s' := by
  obtain ⟨s1, noisy, ev, best, i, ind, hs⟩ := step_ok h
  have hlast := nonImproving_last ftol s.history best _ hi.best
  have hlen : s'.history.length = s.history.length + 1 := by rw [hs.history]; simp
  have h0 := hi.nonneg
  have h1' := hi.lt
  rcases hs.upd with ⟨h1, h2, _, h3, _⟩ | ⟨h1, h2, _, h3, _⟩
  · refine ⟨?_, by rw [h3], by rw [h3, hlen]; omega, ?_, ?_⟩
    · rw [hs.history, bestAfter_append ftol _ _ _ hi.best, h1, h2]; simp
    · intro j hj1 hj2 hj3; rw [h3] at hj3; omega
    · intro j hj1 hj2
      rw [h3, hlen] at hj1
      have : j = s.history.length := by omega
      rw [this, hs.history, hlast, h1]; simp
  · refine ⟨?_, by rw [h3]; omega, by rw [h3, hlen]; omega, ?_, ?_⟩
    · rw [hs.history, bestAfter_append ftol _ _ _ hi.best, h1, h2]; simp
    · intro j hj1 hj2 hj3
      rw [hlen] at hj2 hj3
      rw [h3] at hj3
      rw [hs.history]
      rcases lt_or_ge j s.history.length with hl | hl
      · rw [nonImproving_append _ _ _ _ hl]
        exact hi.all j hj1 hl (by omega)
      · have : j = s.history.length := by omega
        rw [this, hlast]; exact h1
    · intro j hj1 hj2
      rw [h3, hlen] at hj1
      rw [hs.history, nonImproving_append _ _ _ _ (by omega)]
      exact hi.before j (by omega) hj2

/-- While the loop is running no window of `dead_iter` non-improving generations exists. -/
def NoWindow (ftol : C) (d : ℤ) (s : St R C σ) : Prop :=
  ∀ j m : ℕ, (m : ℤ) = d → 0 < d → ¬ Window ftol s.history j m

theorem noWindow_start {env : Env C} {e : Eda R σ Ω} {f : ℕ → R → C} {ftol : C} {pm : σ}
    {ρ : Rand Ω} {s0 : St R C σ} (h : start env e f pm ρ = .ok s0) :
    NoWindow ftol e.deadIter s0 := by
  obtain ⟨ev, r0, c0, best, i, hs⟩ := start_ok h
  intro j m hm hd hw
  obtain ⟨h1, h2, _⟩ := hw
  rw [hs.history] at h2
  simp at h2
  omega

/-- A window in `h ++ [x]` either already lies in `h` or ends at the new element. -/
theorem window_append {ftol : C} {h : List C} {x : C} {j m : ℕ}
    (hw : Window ftol (h ++ [x]) j m) :
    Window ftol h j m ∨ j + m = h.length + 1 := by
  obtain ⟨h1, h2, h3⟩ := hw
  simp only [List.length_append, List.length_cons, List.length_nil] at h2
  rcases Nat.lt_or_ge (j + m) (h.length + 1) with hl | hl
  · left
    refine ⟨h1, by omega, fun i hi1 hi2 => ?_⟩
    rw [← nonImproving_append ftol h x i (by omega)]
    exact h3 i hi1 hi2
  · right; omega

theorem noWindow_step {env : Env C} {e : Eda R σ Ω} {f : ℕ → R → C} {ftol : C} {ρ : Rand Ω}
    {noise : Gen R → Except PyErr (Gen R)} {t : ℕ} {s s' : St R C σ} {b : Bool}
    (hk : StreakInv ftol s) (hi : NoWindow ftol e.deadIter s)
    (h : step env e f ftol ρ noise t s = .ok (s', b)) :
    (b = true → 0 < e.deadIter ∧ ∃ j m : ℕ, (m : ℤ) = e.deadIter ∧
      Window ftol s'.history j m ∧ j + m = s'.history.length) ∧
    (b = false → NoWindow ftol e.deadIter s') ∧
    (∀ j m : ℕ, (m : ℤ) = e.deadIter → 0 < e.deadIter → Window ftol s'.history j m →
      j + m = s'.history.length) := by
  have hk' := streakInv_step hk h
  obtain ⟨s1, noisy, ev, best, i, ind, hs⟩ := step_ok h
  have hlast := nonImproving_last ftol s.history best _ hk.best
  have hlen : s'.history.length = s.history.length + 1 := by rw [hs.history]; simp
  have h0 := hk.nonneg
  have h1' := hk.lt
  have hend : ∀ j m : ℕ, (m : ℤ) = e.deadIter → 0 < e.deadIter → Window ftol s'.history j m →
      j + m = s'.history.length := by
    intro j m hm hd hw
    rw [hs.history] at hw
    rcases window_append hw with hw | hw
    · exact absurd hw (hi j m hm hd)
    · rw [hlen]; exact hw
  refine ⟨?_, ?_, hend⟩
  · intro hb
    rcases hs.upd with ⟨_, _, _, _, hbf⟩ | ⟨h1, h2, _, h3, hbd⟩
    · rw [hbf] at hb; simp at hb
    · rw [hb] at hbd
      have hd : s'.notBetter = e.deadIter := by simpa using hbd.symm
      have hpos : 0 < e.deadIter := by omega
      refine ⟨hpos, s'.history.length - e.deadIter.toNat, e.deadIter.toNat, by omega, ?_, ?_⟩
      · have hlt := hk'.lt
        refine ⟨by omega, by omega, fun i hi1 hi2 => ?_⟩
        exact hk'.all i (by omega) (by omega) (by omega)
      · have hlt := hk'.lt
        omega
  · intro hb j m hm hd hw
    have hjm := hend j m hm hd hw
    rcases hs.upd with ⟨h1, _, _, h3, _⟩ | ⟨h1, h2, _, h3, hbd⟩
    · -- the last generation improved
      have := hw.2.2 s.history.length (by omega) (by omega)
      rw [hs.history, hlast, h1] at this
      simp at this
    · rw [hb] at hbd
      have hne : s'.notBetter ≠ e.deadIter := by
        intro hx; rw [hx] at hbd; simp at hbd
      -- the streak is exactly `notBetter`, so the window would be shorter than the streak
      rcases lt_or_gt_of_ne hne with hlt | hgt
      · -- streak shorter than d: the generation before the streak improved
        have hnn := hk'.nonneg
        have h1 := hw.1
        have := hk'.before (s'.history.length - s'.notBetter.toNat - 1) (by omega) (by omega)
        exact this (hw.2.2 _ (by omega) (by omega))
      · -- streak longer than d: a window already existed before
        refine hi (j - 1) m hm hd ⟨?_, by omega, fun i hi1 hi2 => ?_⟩
        · have := hk'.lt; omega
        · have := hk'.lt
          rw [← nonImproving_append ftol s.history best i (by omega), ← hs.history]
          exact hk'.all i (by omega) (by omega) (by omega)

/-- Length of the history and reason for stopping. -/
theorem loop_stop {env : Env C} {e : Eda R σ Ω} {f : ℕ → R → C} {ftol : C} {ρ : Rand Ω}
    {noise : Gen R → Except PyErr (Gen R)} :
    ∀ (n t : ℕ) (s s' : St R C σ), StreakInv ftol s → NoWindow ftol e.deadIter s →
      loop env e f ftol ρ noise n t s = .ok s' →
      s.history.length ≤ s'.history.length ∧ s'.history.length ≤ s.history.length + n ∧
      (s'.history.length < s.history.length + n → 0 < e.deadIter ∧ ∃ j m : ℕ,
        (m : ℤ) = e.deadIter ∧ Window ftol s'.history j m ∧ j + m = s'.history.length) ∧
      (∀ j m : ℕ, (m : ℤ) = e.deadIter → 0 < e.deadIter → Window ftol s'.history j m →
        j + m = s'.history.length) := by
  intro n
  induction n with
  | zero =>
    intro t s s' hk hw h
    simp only [loop, Except.ok.injEq] at h
    subst h
    exact ⟨le_refl _, by omega, by omega, fun j m hm hd hwin => absurd hwin (hw j m hm hd)⟩
  | succ n ih =>
    intro t s s' hk hw h
    unfold loop at h
    split at h
    · simp at h
    · rename_i s2 hs
      simp only [Except.ok.injEq] at h
      subst h
      have hlen : s2.history.length = s.history.length + 1 := by
        obtain ⟨_, _, _, _, _, _, hso⟩ := step_ok hs
        rw [hso.history]; simp
      obtain ⟨h1, _, h3⟩ := noWindow_step hk hw hs
      exact ⟨by omega, by omega, fun _ => h1 rfl, h3⟩
    · rename_i s2 hs
      have hlen : s2.history.length = s.history.length + 1 := by
        obtain ⟨_, _, _, _, _, _, hso⟩ := step_ok hs
        rw [hso.history]; simp
      obtain ⟨_, h2, _⟩ := noWindow_step hk hw hs
      obtain ⟨i1, i2, i3, i4⟩ := ih _ _ _ (streakInv_step hk hs) (h2 rfl) h
      exact ⟨by omega, by omega, fun hx => i3 (by omega), i4⟩

/-! ### Summary facts about a whole run -/

variable {env : Env C} {e : Eda R σ Ω} {f : ℕ → R → C} {ftol : C} {pm : σ} {ρ : Rand Ω}
variable {res : EdaResult R C} {s : St R C σ}

/-- The result repeats the final state. -/
theorem result_eq (h : minimize env e f ftol pm ρ = .ok (res, s)) :
    res.bestInd = s.bestInd ∧ res.bestCost = s.bestCost ∧ res.history = s.history ∧
      res.nFev = s.history.length * e.sizeGen := by
  obtain ⟨_, _, _, _, _, hr⟩ := minimize_ok h
  rw [hr]
  exact ⟨rfl, rfl, rfl, rfl⟩

/-- Length of the history of a run and the reason for stopping, from the loop. -/
theorem history_stop (h : minimize env e f ftol pm ρ = .ok (res, s)) :
    1 ≤ res.history.length ∧ (res.history.length : ℤ) ≤ max 1 e.maxIter ∧
    ((res.history.length : ℤ) < max 1 e.maxIter → 0 < e.deadIter ∧ ∃ j m : ℕ,
      (m : ℤ) = e.deadIter ∧ Window ftol res.history j m ∧ j + m = res.history.length) ∧
    (∀ j m : ℕ, (m : ℤ) = e.deadIter → 0 < e.deadIter → Window ftol res.history j m →
      j + m = res.history.length) := by
  obtain ⟨_, _, hh, _⟩ := result_eq h
  obtain ⟨s0, noise, h0, _, hl, _⟩ := minimize_ok h
  have hlen : s0.history.length = 1 := by
    obtain ⟨_, _, _, _, _, hs⟩ := start_ok h0
    rw [hs.history]; rfl
  obtain ⟨i1, i2, i3, i4⟩ := loop_stop _ _ _ _ (streakInv_start h0) (noWindow_start h0) hl
  rw [hh]
  exact ⟨by clear i3 i4; omega, by clear i3 i4; omega, fun hx => i3 (by clear i3 i4; omega), i4⟩

/-- Number of calls: the first generation has `m` rows and every sampled one `size_gen` rows. -/
theorem calls_count (hv : env.Valid) {m : ℕ}
    (hi : ∀ g, e.initGen ρ.init = .ok g → g.rows.length = m)
    (hsz : ∀ pm ω g, e.sample pm ω = .ok g → (g.rows.length : ℤ) = e.sizeGen)
    (h : minimize env e f ftol pm ρ = .ok (res, s)) :
    (s.log.flatten.length : ℤ) = m + (res.history.length - 1) * e.sizeGen := by
  obtain ⟨_, _, hh, _⟩ := result_eq h
  rw [hh]
  refine minimize_inv
    (fun s => (s.log.flatten.length : ℤ) = m + (s.history.length - 1) * e.sizeGen) ?_ ?_ h
  · intro s0 h0
    obtain ⟨ev, r0, c0, best, i, hs⟩ := start_ok h0
    have := (check_calls hv hs.check).2
    rw [hs.log, hs.history]
    simp [this, length_callRows, hi _ hs.init]
  · intro noise t s s' b hinv _ hst
    obtain ⟨s1, noisy, ev, best, i, ind, hs⟩ := step_ok hst
    have := (check_calls hv hs.check).2
    rw [hs.log, hs.history]
    simp only [List.flatten_append, List.length_append, List.flatten_cons, List.flatten_nil,
      List.append_nil, Nat.cast_add, this, List.length_zip, length_callRows, min_self,
      hsz _ _ _ hs.sample, hinv, List.length_cons, List.length_nil]
    push_cast
    ring

end Verif
