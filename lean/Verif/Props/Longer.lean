/-
C63: a longer run extends a shorter one.
-/
import Verif.Props.Tolerance

set_option linter.unusedSectionVars false

namespace Verif

open PyCost Spec

namespace Spec

/-- `d'` is at least as patient as `d` (a `dead_iter ≤ 0` never stops a run). -/
def Patient (d d' : ℤ) : Prop := d' = d ∨ (0 < d ∧ (d ≤ d' ∨ d' ≤ 0))

end Spec

section
variable {R C σ Ω : Type} [PyCost C]
variable {env : Env C} {e : Eda R σ Ω} {f : ℕ → R → C} {ftol : C} {pm : σ} {ρ : Rand Ω}

/-- A pass does not look at `max_iter`, and at `dead_iter` only for the flag. -/
theorem step_limits (m d : ℤ) (noise : Gen R → Except PyErr (Gen R)) (t : ℕ) (s : St R C σ) :
    (∃ err, step env e f ftol ρ noise t s = .error err ∧
      step env { e with maxIter := m, deadIter := d } f ftol ρ noise t s = .error err) ∨
    ∃ s' b b', step env e f ftol ρ noise t s = .ok (s', b) ∧
      step env { e with maxIter := m, deadIter := d } f ftol ρ noise t s = .ok (s', b') ∧
      s.history <+: s'.history ∧ s'.history.length = s.history.length + 1 ∧ s.log <+: s'.log ∧
      ((b = false ∧ b' = false ∧ s'.notBetter = 0) ∨
        (s'.notBetter = s.notBetter + 1 ∧ b = decide (s'.notBetter = e.deadIter) ∧
          b' = decide (s'.notBetter = d))) := by
  unfold step
  have ht : truncation env { e with maxIter := m, deadIter := d } s = truncation env e s := rfl
  rw [ht]
  cases hs1 : truncation env e s with
  | error err => exact .inl ⟨err, rfl, rfl⟩
  | ok s1 =>
  obtain ⟨t1, t2, t3, t4, t5, t6⟩ := truncation_fields hs1
  simp only
  cases noise s1.gen with
  | error err => exact .inl ⟨err, rfl, rfl⟩
  | ok noisy =>
  simp only
  cases e.updatePm s1.pm noisy s1.elite (ρ.learn t) with
  | error err => exact .inl ⟨err, rfl, rfl⟩
  | ok pm =>
  simp only
  cases e.sample pm (ρ.sample t) with
  | error err => exact .inl ⟨err, rfl, rfl⟩
  | ok gen =>
  simp only
  cases checkGeneration env e.parallel f s1.log.flatten.length gen.rows with
  | error err => exact .inl ⟨err, rfl, rfl⟩
  | ok ev =>
  obtain ⟨calls, evals⟩ := ev
  simp only
  cases pyMin evals with
  | none => exact .inl ⟨_, rfl, rfl⟩
  | some best =>
  simp only
  cases whereFirst evals best with
  | none => exact .inl ⟨_, rfl, rfl⟩
  | some i =>
  simp only
  cases gen.rows[i]? with
  | none => exact .inl ⟨_, rfl, rfl⟩
  | some ind =>
  simp only
  right
  by_cases hb : PyCost.lt best (mulTol s1.bestCost ftol) = true
  · rw [if_pos hb, if_pos hb]
    exact ⟨_, _, _, rfl, rfl, by simp [t4], by simp [t4], by simp [t6], .inl ⟨rfl, rfl, rfl⟩⟩
  · rw [if_neg hb, if_neg hb]
    exact ⟨_, _, _, rfl, rfl, by simp [t4], by simp [t4], by simp [t6],
      .inr ⟨by simp [t5], rfl, rfl⟩⟩

theorem loop_prefix (noise : Gen R → Except PyErr (Gen R)) (n t : ℕ) (s s' : St R C σ)
    (h : loop env e f ftol ρ noise n t s = .ok s') :
    s.history <+: s'.history ∧ s.log <+: s'.log := by
  induction n generalizing t s with
  | zero => simp only [loop, Except.ok.injEq] at h; rw [h]; exact ⟨List.prefix_refl _, List.prefix_refl _⟩
  | succ n ih =>
    unfold loop at h
    rcases step_limits (env := env) (f := f) (ftol := ftol) (ρ := ρ) e.maxIter e.deadIter noise t s with
      ⟨err, he, _⟩ | ⟨s1, b, b', he, _, h1, _, h2, _⟩
    · rw [he] at h; simp at h
    · rw [he] at h
      cases b with
      | true => simp only [Except.ok.injEq] at h; rw [← h]; exact ⟨h1, h2⟩
      | false => obtain ⟨i1, i2⟩ := ih _ _ h; exact ⟨h1.trans i1, h2.trans i2⟩

theorem loop_longer (m d : ℤ) (hd : Patient e.deadIter d) (noise : Gen R → Except PyErr (Gen R))
    (n n' t : ℕ) (hn : n ≤ n') (s : St R C σ) (h0 : 0 ≤ s.notBetter)
    (hb : 0 < e.deadIter → s.notBetter < e.deadIter) :
    (∃ err, loop env e f ftol ρ noise n t s = .error err ∧
      loop env { e with maxIter := m, deadIter := d } f ftol ρ noise n' t s = .error err) ∨
    ∃ s1, loop env e f ftol ρ noise n t s = .ok s1 ∧
      (∀ s', loop env { e with maxIter := m, deadIter := d } f ftol ρ noise n' t s = .ok s' →
        s1.history <+: s'.history ∧ s1.log <+: s'.log) ∧
      (d = e.deadIter → s1.history.length < s.history.length + n →
        loop env { e with maxIter := m, deadIter := d } f ftol ρ noise n' t s = .ok s1) := by
  induction n generalizing n' t s with
  | zero =>
    right
    refine ⟨s, rfl, fun s' h => loop_prefix _ _ _ _ _ h, fun _ h => ?_⟩
    simp at h
  | succ n ih =>
    obtain ⟨n', rfl⟩ : ∃ k, n' = k + 1 := ⟨n' - 1, by omega⟩
    simp only [loop]
    rcases step_limits (env := env) (e := e) (f := f) (ftol := ftol) (ρ := ρ) m d noise t s with
      ⟨err, he, he'⟩ | ⟨s1, b, b', he, he', h1, hl, h2, hc⟩
    · left; exact ⟨err, by rw [he], by rw [he']⟩
    · rw [he, he']
      cases b with
      | true =>
        right
        refine ⟨s1, rfl, ?_, ?_⟩
        · cases b' with
          | true => intro s' h; obtain rfl := Except.ok.inj h; exact ⟨List.prefix_refl _, List.prefix_refl _⟩
          | false => intro s' h; exact loop_prefix _ _ _ _ _ h
        · intro hdd _
          rcases hc with ⟨hc, _⟩ | ⟨_, hc, hc'⟩
          · cases hc
          · rw [hdd, ← hc] at hc'
            rw [hc']
      | false =>
        have hb' : b' = false := by
          rcases hc with ⟨_, hc, _⟩ | ⟨hx, hc, hc'⟩
          · exact hc
          · have hc := of_decide_eq_false hc.symm
            rw [hc']
            apply decide_eq_false
            rcases hd with rfl | ⟨hd0, hd⟩
            · exact hc
            · have := hb hd0
              omega
        subst hb'
        have hnn : 0 ≤ s1.notBetter ∧ (0 < e.deadIter → s1.notBetter < e.deadIter) := by
          rcases hc with ⟨_, _, hc⟩ | ⟨hx, hc, _⟩
          · rw [hc]; exact ⟨le_rfl, fun h => h⟩
          · have hc := of_decide_eq_false hc.symm
            refine ⟨by omega, fun h => ?_⟩
            have := hb h
            omega
        rcases ih n' (t + 1) (by omega) s1 hnn.1 hnn.2 with ⟨err, i1, i2⟩ | ⟨s2, i1, i2, i3⟩
        · exact .inl ⟨err, i1, i2⟩
        · refine .inr ⟨s2, i1, i2, fun hdd hlt => i3 hdd ?_⟩
          omega

/-- **C63** raising `max_iter`, or making `dead_iter` more patient, only extends a run: an exception of
the shorter run also ends the longer one; if the longer run returns, so does the shorter one, and its
history and its calls of the cost function are the beginning of those of the longer run. -/
theorem C63_extends {m d : ℤ} (hm : e.maxIter ≤ m) (hd : Patient e.deadIter d) :
    (∀ err, minimize env e f ftol pm ρ = .error err →
      minimize env { e with maxIter := m, deadIter := d } f ftol pm ρ = .error err) ∧
    ∀ res' s', minimize env { e with maxIter := m, deadIter := d } f ftol pm ρ = .ok (res', s') →
      ∃ res s, minimize env e f ftol pm ρ = .ok (res, s) ∧ res.history <+: res'.history ∧
        s.log <+: s'.log := by
  have hst : start env { e with maxIter := m, deadIter := d } f pm ρ = start env e f pm ρ := rfl
  unfold minimize
  rw [hst]
  cases h0 : start env e f pm ρ with
  | error err => exact ⟨fun err' h => h, fun res' s' h => by simp at h⟩
  | ok s0 =>
  simp only
  cases e.mkNoise ρ.noise with
  | error err => exact ⟨fun err' h => h, fun res' s' h => by simp at h⟩
  | ok noise =>
  simp only
  obtain ⟨_, _, _, _, _, hs⟩ := start_ok h0
  rcases loop_longer (env := env) (e := e) (f := f) (ftol := ftol) (ρ := ρ) m d hd noise
    (e.maxIter - 1).toNat (m - 1).toNat 1 (by omega) s0 (by rw [hs.notBetter])
    (by rw [hs.notBetter]; exact id) with ⟨err, h1, h2⟩ | ⟨s1, h1, h2, _⟩
  · rw [h1, h2]
    exact ⟨fun err' h => h, fun res' s' h => by simp at h⟩
  · rw [h1]
    refine ⟨fun err' h => by simp at h, fun res' s' h => ?_⟩
    refine ⟨_, _, rfl, ?_⟩
    split at h
    · simp at h
    rename_i s2 hs2
    obtain ⟨rfl, rfl⟩ := Prod.mk.inj (Except.ok.inj h)
    exact h2 _ hs2

/-- **C63** a run that was stopped by `dead_iter` does not change at all when `max_iter` is raised. -/
theorem C63_stopped_early {m : ℤ} (hm : e.maxIter ≤ m) {res : EdaResult R C} {s : St R C σ}
    (h : minimize env e f ftol pm ρ = .ok (res, s))
    (hlt : (res.history.length : ℤ) < max 1 e.maxIter) :
    minimize env { e with maxIter := m } f ftol pm ρ = .ok (res, s) := by
  obtain ⟨s0, noise, h0, hn, hl, hres⟩ := minimize_ok h
  have hst : start env { e with maxIter := m } f pm ρ = start env e f pm ρ := rfl
  obtain ⟨_, _, _, _, _, hs⟩ := start_ok h0
  have hlen : res.history = s.history := by rw [hres]
  have h1 : s0.history.length = 1 := by rw [hs.history]; rfl
  rcases loop_longer (env := env) (e := e) (f := f) (ftol := ftol) (ρ := ρ) m e.deadIter (.inl rfl)
    noise (e.maxIter - 1).toNat (m - 1).toNat 1 (by omega) s0 (by rw [hs.notBetter])
    (by rw [hs.notBetter]; exact id) with ⟨err, h3, _⟩ | ⟨s1, h3, _, h4⟩
  · rw [hl] at h3; simp at h3
  · rw [hl] at h3
    obtain rfl := Except.ok.inj h3
    have h4 := h4 rfl (by rw [← hlen, h1]; omega)
    unfold minimize
    rw [hst, h0]
    simp only [hn, h4, hres]

/-- **C63** with a tolerance without effect (`ftol = 0`) the longer run never reports a worse cost. -/
theorem C63_no_worse [LawfulCost C] [UniformCost C] (hv : env.Valid) (ht : ∀ b : C, mulTol b ftol = b)
    {m d : ℤ} (hm : e.maxIter ≤ m) (hd : Patient e.deadIter d) {res res' : EdaResult R C}
    {s s' : St R C σ} (h : minimize env e f ftol pm ρ = .ok (res, s))
    (h' : minimize env { e with maxIter := m, deadIter := d } f ftol pm ρ = .ok (res', s')) :
    PyCost.lt res.bestCost res'.bestCost = false := by
  obtain ⟨res2, s2, h2, hp, _⟩ := (C63_extends hm hd).2 res' s' h'
  rw [h] at h2
  obtain ⟨rfl, rfl⟩ := Prod.mk.inj (Except.ok.inj h2)
  exact (C03_zero_tolerance hv ht h').2 _ (hp.subset (C03_zero_tolerance hv ht h).1)

end

/-- **C63** the object constructed with other limits (if accepted) is the object with these limits, so
the other theorems apply to it. -/
theorem C63_object {K R σ Ω : Type} [Field K] [LinearOrder K] [FloorRing K] {fl : K → K}
    {cfg : BaseCfg K R} {noise init learn sample} {e : Eda R σ Ω}
    (h : mkEdaG fl cfg noise init learn sample = .ok e) {m d : ℤ} (hd : d ≤ m) :
    mkEdaG fl { cfg with maxIter := m, deadIter := d } noise init learn sample =
      .ok { e with maxIter := m, deadIter := d } := by
  unfold mkEdaG at h ⊢
  rw [if_neg (by simpa using hd)]
  split at h
  · cases h
  simp only at h ⊢
  cases hi : cfg.initData with
  | none =>
    rw [hi] at h
    cases h
    rfl
  | some data =>
    rw [hi] at h
    simp only at h ⊢
    split at h
    · rename_i hc
      rw [if_pos hc]
      cases h
      rfl
    · cases h

/-- A run stopped by `dead_iter` after 2 of 3 generations does not change with `max_iter = 50`. -/
example : minimize Ex.env { Ex.edaDead with maxIter := 50 } (fun _ _ => -5) (1/100) Ex.pm Ex.rand =
    Ex.runNeg := by
  obtain ⟨⟨res, s⟩, h, hf⟩ := Ex.facts_of Ex.runNeg_facts
  rw [h]
  refine C63_stopped_early (by decide +kernel) h ?_
  simp only at hf
  rw [hf]
  decide +kernel

/-- A run of 2 generations is the beginning of the run of 3 generations, and reports a worse cost. -/
example : ∃ res s, minimize Ex.env { Ex.eda with maxIter := 1 } Ex.cost 0 Ex.pm Ex.rand = .ok (res, s) ∧
    res.history <+: [6, 5, 5] ∧ res.history.length = 1 ∧ res.bestCost = 6 := by
  obtain ⟨⟨res', s'⟩, h', hf⟩ := Ex.facts_of Ex.run_facts
  obtain ⟨res, s, h, hp, _⟩ := (C63_extends (e := { Ex.eda with maxIter := 1 }) (m := Ex.eda.maxIter)
    (d := Ex.eda.deadIter) (by decide +kernel) (.inl rfl)).2 res' s' h'
  obtain ⟨⟨res2, s2⟩, h2, hf2⟩ := Ex.facts_of
    (x := minimize Ex.env { Ex.eda with maxIter := 1 } Ex.cost 0 Ex.pm Ex.rand)
    (g := fun x => (x.1.history.length, x.1.bestCost)) (y := (1, 6)) (by decide +kernel)
  rw [h] at h2
  obtain ⟨rfl, rfl⟩ := Prod.mk.inj (Except.ok.inj h2)
  simp only [Prod.mk.injEq] at hf hf2
  exact ⟨res, s, h, by rw [← hf.1]; exact hp, hf2.1, hf2.2⟩

end Verif
