/-
What `minimize` prints (eda.py:183-184, 211-212, 214-216): C65.
-/
import Verif.Lemmas.Loop
import Verif.Props.Longer
import Verif.Spec.Output
import Verif.Model.Examples

namespace Verif

open PyCost Spec

variable {R C σ Ω : Type} [PyCost C]
variable {env : Env C} {e : Eda R σ Ω} {f : ℕ → R → C} {ftol : C} {pm : σ} {ρ : Rand Ω}

theorem loopOut_snd (noise : Gen R → Except PyErr (Gen R)) (b : Bool) :
    ∀ (n t : ℕ) (s : St R C σ),
      (loopOut env e f ftol ρ noise b n t s).2 = loop env e f ftol ρ noise n t s := by
  intro n
  induction n with
  | zero => intro t s; rfl
  | succ n ih =>
    intro t s
    rcases hs : step env e f ftol ρ noise t s with err | ⟨s', _ | _⟩
    · simp only [loopOut, loop, hs]
    · simp only [loopOut, loop, hs]; exact ih _ _
    · simp only [loopOut, loop, hs]

/-- **C65** Printing does not influence a run: whatever `output_runtime` and `disp` are, `minimize`
returns the same result, leaves the same state, or raises the same exception. -/
theorem C65_result (outputRuntime disp : Bool) :
    (minimizeOut env e f ftol pm ρ outputRuntime disp).2 = minimize env e f ftol pm ρ := by
  rcases h0 : start env e f pm ρ with err | s0
  · simp only [minimizeOut, minimize, h0]
  rcases hn : e.mkNoise ρ.noise with err | noise
  · simp only [minimizeOut, minimize, h0, hn]
  have h := loopOut_snd (env := env) (e := e) (f := f) (ftol := ftol) (ρ := ρ) noise outputRuntime
    (e.maxIter - 1).toNat 1 s0
  rcases hl : loopOut env e f ftol ρ noise outputRuntime (e.maxIter - 1).toNat 1 s0 with
    ⟨out, err | s⟩ <;> rw [hl] at h <;> simp only at h <;>
    simp only [minimizeOut, minimize, h0, hn, hl, ← h]

/-- **C65** Nothing is printed when both are off. -/
theorem C65_silent : (minimizeOut env e f ftol pm ρ false false).1 = [] := by
  have hl : ∀ (noise : Gen R → Except PyErr (Gen R)) (n t : ℕ) (s : St R C σ),
      (loopOut env e f ftol ρ noise false n t s).1 = [] := by
    intro noise n
    induction n with
    | zero => intro t s; rfl
    | succ n ih =>
      intro t s
      unfold loopOut
      split
      · rfl
      · rfl
      · simp [showIt, ih]
  rcases h0 : start env e f pm ρ with err | s0
  · simp only [minimizeOut, h0]
  rcases hn : e.mkNoise ρ.noise with err | noise
  · simp only [minimizeOut, h0, hn]
  have h := hl noise (e.maxIter - 1).toNat 1 s0
  rcases hL : loopOut env e f ftol ρ noise false (e.maxIter - 1).toNat 1 s0 with
    ⟨out, err | s⟩ <;> rw [hL] at h <;> simp only at h <;>
    simp only [minimizeOut, h0, hn, hL, showIt, showEnd, h] <;> rfl

theorem endsStale_iff {ftol : C} {s : St R C σ} {d : ℤ} (hk : StreakInv ftol s) :
    EndsStale ftol s.history d ↔ 1 ≤ d ∧ d ≤ s.notBetter := by
  have h0 := hk.nonneg
  have h1 := hk.lt
  constructor
  · rintro ⟨hd, hlt, hall⟩
    refine ⟨hd, ?_⟩
    by_contra hcon
    have := hk.before (s.history.length - s.notBetter.toNat - 1) (by omega) (by omega)
    exact this (hall _ (by omega) (by omega))
  · rintro ⟨hd, hle⟩
    exact ⟨hd, by omega, fun i hi1 hi2 => hk.all i (by omega) hi2 (by omega)⟩

/-- The lines printed by the passes of the loop. -/
theorem loopOut_lines {noise : Gen R → Except PyErr (Gen R)} :
    ∀ (n t : ℕ) (s s' : St R C σ), StreakInv ftol s →
      (0 < e.deadIter → s.notBetter < e.deadIter) → s.history.length = t →
      (loopOut env e f ftol ρ noise true n t s).2 = .ok s' →
      ∃ k, (loopOut env e f ftol ρ noise true n t s).1.length = k ∧
        (∀ i l, (loopOut env e f ftol ρ noise true n t s).1[i]? = some l →
          IsReport ftol s'.history (t + i) l) ∧
        (t + k = s'.history.length ∧ ¬ EndsStale ftol s'.history e.deadIter ∨
          t + k + 1 = s'.history.length ∧ EndsStale ftol s'.history e.deadIter) := by
  intro n
  induction n with
  | zero =>
    intro t s s' hk hd ht h
    simp only [loopOut, Except.ok.injEq] at h
    subst h
    refine ⟨0, rfl, by simp [loopOut], Or.inl ⟨ht.symm ▸ rfl, ?_⟩⟩
    rw [endsStale_iff hk]
    rintro ⟨h1, h2⟩
    have := hd (by omega)
    omega
  | succ n ih =>
    intro t s s' hk hd ht h
    rcases hs : step env e f ftol ρ noise t s with err | ⟨s2, _ | _⟩
    · simp [loopOut, hs] at h
    · have hk2 := streakInv_step hk hs
      obtain ⟨s1, noisy, ev, best, i, ind, hso⟩ := step_ok hs
      have hlen : s2.history.length = t + 1 := by rw [hso.history]; simp [ht]
      have hd2 : 0 < e.deadIter → s2.notBetter < e.deadIter := by
        intro hp
        rcases hso.upd with ⟨_, _, _, h3, _⟩ | ⟨_, _, _, h3, hb⟩
        · rw [h3]; exact hp
        · have := hd hp
          have hne : s2.notBetter ≠ e.deadIter := by
            intro hx; rw [hx] at hb; simp at hb
          omega
      simp only [loopOut, hs] at h
      obtain ⟨k, h1, h2, h3⟩ := ih (t + 1) s2 s' hk2 hd2 hlen h
      have hpre : s2.history <+: s'.history := by
        rw [loopOut_snd] at h
        exact (loop_prefix _ _ _ _ _ h).1
      refine ⟨k + 1, ?_, ?_, ?_⟩
      · simp [loopOut, hs, showIt, h1]
      · intro i l hl
        simp only [loopOut, hs, showIt, if_true, List.singleton_append] at hl
        rcases i with _ | i
        · simp only [List.getElem?_cons_zero, Option.some.injEq] at hl
          refine ⟨s2.bestCost, ?_, hl.symm⟩
          have : s'.history.take (t + 0 + 1) = s2.history := by
            have := List.prefix_iff_eq_take.1 hpre
            rw [hlen] at this
            exact this.symm
          rw [this]
          exact hk2.best
        · simp only [List.getElem?_cons_succ] at hl
          have := h2 i l hl
          rwa [show t + (i + 1) = t + 1 + i by omega]
      · rcases h3 with ⟨h3, h4⟩ | ⟨h3, h4⟩
        · exact Or.inl ⟨by omega, h4⟩
        · exact Or.inr ⟨by omega, h4⟩
    · have hk2 := streakInv_step hk hs
      obtain ⟨s1, noisy, ev, best, i, ind, hso⟩ := step_ok hs
      have hlen : s2.history.length = t + 1 := by rw [hso.history]; simp [ht]
      simp only [loopOut, hs, Except.ok.injEq] at h
      subst h
      refine ⟨0, by simp [loopOut, hs], by simp [loopOut, hs], Or.inr ⟨by omega, ?_⟩⟩
      rw [endsStale_iff hk2]
      rcases hso.upd with ⟨_, _, _, _, hb⟩ | ⟨_, _, _, h3, hb⟩
      · simp at hb
      · have : s2.notBetter = e.deadIter := by simpa using hb.symm
        have := hk.nonneg
        omega

/-- **C65** The lines of a run with `output_runtime`: one line for each generation, in order,
reporting its number and the best cost so far; only when the run is stopped by `dead_iter` the line
of the last generation is missing.  With `disp` the last two lines report the number of evaluations,
the best cost and the best individual of the result. -/
theorem C65_lines {res : EdaResult R C} {s : St R C σ} (disp : Bool)
    (h : (minimizeOut env e f ftol pm ρ true disp).2 = .ok (res, s)) :
    ∃ out k, Reports ftol res.history k out ∧
      (minimizeOut env e f ftol pm ρ true disp).1 =
        out ++ (if disp then [.fevals res.nFev res.bestCost, .x res.bestInd] else []) ∧
      (¬ EndsStale ftol res.history e.deadIter → k = res.history.length) ∧
      (EndsStale ftol res.history e.deadIter → k + 1 = res.history.length) := by
  rw [C65_result] at h
  obtain ⟨s0, noise, h0, hn, hl, hr⟩ := minimize_ok h
  obtain ⟨_, _, _, _, _, hso⟩ := start_ok h0
  have hk0 : StreakInv ftol s0 := streakInv_start h0
  have hlen : s0.history.length = 1 := by rw [hso.history]; rfl
  rw [← loopOut_snd noise true] at hl
  obtain ⟨k, h1, h2, h3⟩ := loopOut_lines _ _ _ _ hk0 (by rw [hso.notBetter]; exact id) hlen hl
  have hpre : s0.history <+: s.history := by
    rw [loopOut_snd] at hl
    exact (loop_prefix _ _ _ _ _ hl).1
  rcases hL : loopOut env e f ftol ρ noise true (e.maxIter - 1).toNat 1 s0 with ⟨out, r⟩
  rw [hL] at hl h1 h2
  simp only at hl h1 h2
  subst hl
  have hh : res.history = s.history := by rw [hr]
  refine ⟨.it 0 s0.bestCost :: out, k + 1, ⟨by simp [h1], ?_⟩, ?_, ?_, ?_⟩
  · intro t l ht
    rw [hh]
    rcases t with _ | t
    · simp only [List.getElem?_cons_zero, Option.some.injEq] at ht
      refine ⟨s0.bestCost, ?_, ht.symm⟩
      have : s.history.take (0 + 1) = s0.history := by
        have := List.prefix_iff_eq_take.1 hpre
        rw [hlen] at this
        exact this.symm
      rw [this]
      exact hk0.best
    · simp only [List.getElem?_cons_succ] at ht
      rw [Nat.add_comm t 1]
      exact h2 t l ht
  · simp only [minimizeOut, h0, hn, hL, showIt, showEnd, hr]
    simp
  · intro hx
    rw [hh] at hx ⊢
    rcases h3 with ⟨h3, _⟩ | ⟨_, h4⟩
    · omega
    · exact absurd h4 hx
  · intro hx
    rw [hh] at hx ⊢
    rcases h3 with ⟨_, h4⟩ | ⟨h3, _⟩
    · exact absurd hx h4
    · omega

example : (minimizeOut Ex.env Ex.eda Ex.cost 0 Ex.pm Ex.rand true true).1 =
    [.it 0 6, .it 1 5, .it 2 5, .fevals 12 5, .x (.row [1, 1])] := by decide +kernel

/-- A run stopped by `dead_iter = 1` in its second generation: `history` is `[-5, -5]`, and the
second generation is not reported. -/
example : (minimizeOut Ex.env Ex.edaDead (fun _ _ => -5) (1/100) Ex.pm Ex.rand true true).1 =
    [.it 0 (-5), .fevals 8 (-5), .x (.index 0)] := by decide +kernel

/-- **C65** A run that raises has printed no final report: every line is the report of a
generation, and these are numbered `0, 1, 2, …`. -/
theorem C65_failed (disp : Bool) {err : PyErr}
    (h : (minimizeOut env e f ftol pm ρ true disp).2 = .error err) (t : ℕ) (l : Line R C)
    (hl : (minimizeOut env e f ftol pm ρ true disp).1[t]? = some l) : ∃ c, l = .it t c := by
  have hL : ∀ (noise : Gen R → Except PyErr (Gen R)) (n t : ℕ) (s : St R C σ) (i : ℕ)
      (l : Line R C), (loopOut env e f ftol ρ noise true n t s).1[i]? = some l →
        ∃ c, l = .it (t + i) c := by
    intro noise n
    induction n with
    | zero => intro t s i l h; simp [loopOut] at h
    | succ n ih =>
      intro t s i l h
      rcases hs : step env e f ftol ρ noise t s with err | ⟨s2, _ | _⟩
      · simp [loopOut, hs] at h
      · simp only [loopOut, hs, showIt, if_true, List.singleton_append] at h
        rcases i with _ | i
        · simp only [List.getElem?_cons_zero, Option.some.injEq] at h
          exact ⟨_, h.symm⟩
        · simp only [List.getElem?_cons_succ] at h
          obtain ⟨c, hc⟩ := ih _ _ _ _ h
          exact ⟨c, by rw [hc]; congr 1; omega⟩
      · simp [loopOut, hs] at h
  rcases h0 : start env e f pm ρ with err | s0
  · simp [minimizeOut, h0] at hl
  rcases hn : e.mkNoise ρ.noise with err | noise
  · simp [minimizeOut, h0, hn] at hl
  rcases hl2 : loopOut env e f ftol ρ noise true (e.maxIter - 1).toNat 1 s0 with ⟨out, err | s⟩
  · simp only [minimizeOut, h0, hn, hl2, showIt, if_true, List.singleton_append] at hl
    rcases t with _ | t
    · simp only [List.getElem?_cons_zero, Option.some.injEq] at hl
      exact ⟨_, hl.symm⟩
    · simp only [List.getElem?_cons_succ] at hl
      have := hL noise (e.maxIter - 1).toNat 1 s0 t l (by rw [hl2]; exact hl)
      rwa [Nat.add_comm 1 t] at this
  · simp only [minimizeOut, h0, hn, hl2, reduceCtorEq] at h

/-- An algorithm whose sampler raises for the draws of the third generation. -/
def Ex.edaRaises : Eda (List ℚ) (UniBin ℚ) (Draws ℚ) :=
  { Ex.eda with sample := fun m w => if w 0 1 = 3/4 then .error .valueError else Ex.eda.sample m w }

example : (minimizeOut Ex.env Ex.edaRaises Ex.cost 0 Ex.pm Ex.rand true true).2.toOption.isSome =
      false ∧
    (minimizeOut Ex.env Ex.edaRaises Ex.cost 0 Ex.pm Ex.rand true true).1 =
      [.it 0 6, .it 1 5] := by decide +kernel

end Verif
