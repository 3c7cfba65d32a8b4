/-
C52: aliasing.
-/
import Verif.Spec.Heap
import Verif.Lemmas.UniBin
import Verif.Model.Examples

set_option linter.unusedSectionVars false

namespace Verif

open Spec

variable {R C σ Ω : Type} [PyCost C] {env : Env C} {e : Eda R σ Ω} {f : ℕ → R → C} {ftol : C}
variable {ρ : Rand Ω} {pm : σ} {h h' : Heap R}

theorem HM.bind_def {α β : Type} (m : HM R α) (k : α → HM R β) (h : Heap R) : (m >>= k) h =
    match m h with
    | (.error err, h') => (.error err, h')
    | (.ok x, h') => k x h' := rfl

theorem HM.pure_def {α : Type} (x : α) (h : Heap R) : (pure x : HM R α) h = (.ok x, h) := rfl

@[simp] theorem HM.bind_pureE_ok {α β : Type} (x : α) (k : α → HM R β) :
    (pureE (.ok x) >>= k) h = k x h := rfl

@[simp] theorem HM.bind_pureE_error {α β : Type} (err : PyErr) (k : α → HM R β) :
    (pureE (.error err) >>= k) h = (.error err, h) := rfl

@[simp] theorem HM.bind_pure {α β : Type} (x : α) (k : α → HM R β) :
    ((pure x : HM R α) >>= k) h = k x h := rfl

@[simp] theorem HM.bind_alloc {β : Type} (g : Gen R) (k : ℕ → HM R β) :
    (alloc g >>= k) h = k h.length (h ++ [g]) := rfl

@[simp] theorem HM.bind_write {β : Type} (a : ℕ) (g : Gen R) (k : Unit → HM R β) :
    (writeArr a g >>= k) h = k () (h.set a g) := rfl

theorem HM.bind_read {β : Type} {a : ℕ} {g : Gen R} (hg : h[a]? = some g) (k : Gen R → HM R β) :
    (readArr a >>= k) h = k g h := by
  rw [HM.bind_def, readArr, hg]

theorem HM.bind_ok {α β : Type} {m : HM R α} {k : α → HM R β} {x : α}
    (hm : m h = (.ok x, h')) : (m >>= k) h = k x h' := by
  rw [HM.bind_def, hm]

theorem HM.bind_error {α β : Type} {m : HM R α} {k : α → HM R β} {err : PyErr}
    (hm : m h = (.error err, h')) : (m >>= k) h = (.error err, h') := by
  rw [HM.bind_def, hm]

theorem untouched_refl (h : Heap R) : Untouched h h := fun _ _ => rfl

theorem untouched_trans {h1 h2 h3 : Heap R} (h12 : Untouched h1 h2) (h23 : Untouched h2 h3)
    (hle : h1.length ≤ h2.length) : Untouched h1 h3 :=
  fun a ha => (h23 a (by omega)).trans (h12 a ha)

theorem untouched_append (h : Heap R) (l : Heap R) : Untouched h (h ++ l) :=
  fun _ ha => List.getElem?_append_left ha

theorem untouched_get {h1 h2 : Heap R} (hu : Untouched h1 h2) {a : ℕ} {g : Gen R}
    (hg : h1[a]? = some g) : h2[a]? = some g := by
  rw [hu a (by
    by_contra hc
    rw [List.getElem?_eq_none (not_lt.1 hc)] at hg
    cases hg)]
  exact hg

theorem valueOf_untouched {h1 h2 : Heap R} (hu : Untouched h1 h2) {b : BestRef} {v : BestInd R}
    (hv : valueOf h1 b = some v) : valueOf h2 b = some v := by
  cases b with
  | index i => exact hv
  | view a i =>
    simp only [valueOf] at hv ⊢
    cases hg : h1[a]? with
    | none => rw [hg] at hv; cases hv
    | some g => rw [untouched_get hu hg]; rw [hg] at hv; exact hv

/-- What `_truncation` does in memory: three new arrays. -/
theorem htruncation_spec {hs : HSt C R σ} {s : St R C σ} (hr : Shows h hs s) :
    match truncation env e s with
    | .error err => htruncation env e hs h = (.error err, h)
    | .ok s1 => ∃ cat, htruncation env e hs h =
        (.ok { hs with gen := h.length + 2, elite := h.length + 1, evalsElite := s1.evalsElite
                       evals := s1.evals }, h ++ [cat, s1.elite, s1.gen]) := by
  unfold truncation htruncation
  rw [HM.bind_read hr.gen, HM.bind_read hr.elite]
  cases hc : s.gen.concat s.elite with
  | error err => rfl
  | ok cat =>
    refine ⟨cat, ?_⟩
    rw [HM.bind_pureE_ok, HM.bind_alloc]
    dsimp only
    rw [HM.bind_read (g := cat) (by simp), HM.bind_alloc, HM.bind_read (g := cat) (by simp),
      HM.bind_alloc, HM.pure_def, hr.evals, hr.evalsElite]
    simp

theorem bestOf_cases (evals : List C) :
    (pyMin evals = none ∧ bestOf evals = .error .valueError) ∨
    (∃ best, pyMin evals = some best ∧ whereFirst evals best = none ∧
      bestOf evals = .error .indexError) ∨
    (∃ best i, pyMin evals = some best ∧ whereFirst evals best = some i ∧
      bestOf evals = .ok (best, i)) := by
  unfold bestOf
  cases h1 : pyMin evals with
  | none => exact .inl ⟨rfl, rfl⟩
  | some best =>
    cases h2 : whereFirst evals best with
    | none => exact .inr (.inl ⟨best, rfl, h2, by simp [h2]⟩)
    | some i => exact .inr (.inr ⟨best, i, rfl, h2, by simp [h2]⟩)

/-- One pass in memory: old arrays stay as they are, and what the object shows is what the pass
computes on values. -/
theorem hstep_spec {noise : Gen R → Except PyErr (Gen R)} {t : ℕ} {hs : HSt C R σ} {s : St R C σ}
    (hr : Shows h hs s) :
    match step env e f ftol ρ noise t s with
    | .error err => ∃ h', hstep env e f ftol ρ noise t hs h = (.error err, h') ∧ Untouched h h' ∧
        h.length ≤ h'.length
    | .ok (s', b) => ∃ hs' h', hstep env e f ftol ρ noise t hs h = (.ok (hs', b), h') ∧
        Untouched h h' ∧ h.length ≤ h'.length ∧ Shows h' hs' s' := by
  unfold step hstep
  have ht := htruncation_spec (env := env) (e := e) hr
  cases htr : truncation env e s with
  | error err =>
    rw [htr] at ht
    exact ⟨h, HM.bind_error ht, untouched_refl h, le_rfl⟩
  | ok s1 =>
    rw [htr] at ht
    obtain ⟨cat, ht⟩ := ht
    rw [HM.bind_ok ht]
    dsimp only
    rw [HM.bind_read (g := s1.gen) (by simp)]
    have hkeep : s1.pm = s.pm ∧ s1.log = s.log ∧ s1.bestCost = s.bestCost ∧ s1.bestInd = s.bestInd ∧
        s1.history = s.history ∧ s1.notBetter = s.notBetter := by
      unfold truncation at htr
      split at htr
      · cases htr
      · cases Except.ok.inj htr
        exact ⟨rfl, rfl, rfl, rfl, rfl, rfl⟩
    obtain ⟨k1, k2, k3, k4, k5, k6⟩ := hkeep
    have hun : ∀ l, Untouched h (h ++ l) := untouched_append h
    cases hn : noise s1.gen with
    | error err => exact ⟨_, rfl, hun _, by simp⟩
    | ok noisy =>
      have hset : (h ++ [cat, s1.elite, s1.gen]).set (h.length + 2) noisy =
          h ++ [cat, s1.elite, noisy] := by simp
      rw [HM.bind_pureE_ok, HM.bind_write, hset, HM.bind_read (g := noisy) (by simp),
        HM.bind_read (g := s1.elite) (by simp)]
      dsimp only
      rw [hr.pm, ← k1]
      cases hu : e.updatePm s1.pm noisy s1.elite (ρ.learn t) with
      | error err => exact ⟨_, rfl, hun _, by simp⟩
      | ok pm =>
        rw [HM.bind_pureE_ok]
        dsimp only
        cases hsm : e.sample pm (ρ.sample t) with
        | error err => exact ⟨_, rfl, hun _, by simp⟩
        | ok new =>
          have happ : h ++ [cat, s1.elite, noisy] ++ [new] = h ++ [cat, s1.elite, noisy, new] := by simp
          have hlen : (h ++ [cat, s1.elite, noisy]).length = h.length + 3 := by simp
          rw [HM.bind_pureE_ok, HM.bind_alloc, happ, hlen, HM.bind_read (g := new) (by simp)]
          dsimp only
          rw [hr.log, ← k2]
          cases hck : checkGeneration env e.parallel f s1.log.flatten.length new.rows with
          | error err => exact ⟨_, rfl, hun _, by simp⟩
          | ok ev =>
            obtain ⟨calls, evals⟩ := ev
            rw [HM.bind_pureE_ok]
            dsimp only
            rcases bestOf_cases evals with ⟨h1, h2⟩ | ⟨best, h1, h2, h3⟩ | ⟨best, i, h1, h2, h3⟩
            · rw [h1, h2]
              exact ⟨_, rfl, hun _, by simp⟩
            · rw [h1, h3]
              dsimp only
              rw [h2]
              exact ⟨_, rfl, hun _, by simp⟩
            · rw [h1, h3]
              dsimp only
              rw [h2, HM.bind_pureE_ok]
              dsimp only
              cases hi : new.rows[i]? with
              | none => exact ⟨_, rfl, hun _, by simp⟩
              | some ind =>
                dsimp only
                rw [hr.bestCost, ← k3]
                by_cases hlt : PyCost.lt best (PyCost.mulTol s1.bestCost ftol) = true
                · rw [if_pos hlt, if_pos hlt]
                  refine ⟨_, _, rfl, hun _, by simp, ?_⟩
                  exact ⟨by simp, by simp, by simp [valueOf, hi], rfl, rfl, rfl, rfl,
                    by rw [hr.history, k5], rfl, rfl⟩
                · rw [if_neg hlt, if_neg hlt, hr.notBetter, ← k6]
                  refine ⟨_, _, rfl, hun _, by simp, ?_⟩
                  exact ⟨by simp, by simp, by rw [k4]; exact valueOf_untouched (hun _) hr.best, rfl, rfl,
                    rfl, rfl, by rw [hr.history, k5], rfl, rfl⟩

theorem hloop_spec {noise : Gen R → Except PyErr (Gen R)} {n t : ℕ} {hs : HSt C R σ} {s : St R C σ}
    (hr : Shows h hs s) :
    match loop env e f ftol ρ noise n t s with
    | .error err => ∃ h', hloop env e f ftol ρ noise n t hs h = (.error err, h') ∧ Untouched h h'
    | .ok s' => ∃ hs' h', hloop env e f ftol ρ noise n t hs h = (.ok hs', h') ∧
        Untouched h h' ∧ Shows h' hs' s' := by
  induction n generalizing t hs s h with
  | zero => exact ⟨hs, h, rfl, untouched_refl h, hr⟩
  | succ n ih =>
    have hst := hstep_spec (env := env) (e := e) (f := f) (ftol := ftol) (ρ := ρ) (noise := noise)
      (t := t) hr
    unfold loop hloop
    cases hs1 : step env e f ftol ρ noise t s with
    | error err =>
      rw [hs1] at hst
      obtain ⟨h', he, hu, _⟩ := hst
      exact ⟨h', HM.bind_error he, hu⟩
    | ok r =>
      obtain ⟨s', b⟩ := r
      rw [hs1] at hst
      obtain ⟨hs', h', he, hu, hle, hr'⟩ := hst
      rw [HM.bind_ok he]
      cases b with
      | true => exact ⟨hs', h', rfl, hu, hr'⟩
      | false =>
        have hih := ih (t := t + 1) hr'
        simp only [Bool.false_eq_true, if_false]
        cases hl : loop env e f ftol ρ noise n (t + 1) s' with
        | error err =>
          rw [hl] at hih
          obtain ⟨h2, h3, h4⟩ := hih
          exact ⟨h2, h3, untouched_trans hu h4 hle⟩
        | ok s2 =>
          rw [hl] at hih
          obtain ⟨hs2, h2, h3, h4, h5⟩ := hih
          exact ⟨hs2, h2, h3, untouched_trans hu h4 hle, h5⟩

theorem hstart_spec {data : Option ℕ}
    (hd : ∀ a, data = some a → ∃ g, h[a]? = some g ∧ e.initGen ρ.init = .ok g) :
    match start env e f pm ρ with
    | .error err => ∃ h', hstart env e data f pm ρ h = (.error err, h') ∧ Untouched h h' ∧
        h.length ≤ h'.length
    | .ok s' => ∃ hs' h', hstart env e data f pm ρ h = (.ok hs', h') ∧
        Untouched h h' ∧ h.length ≤ h'.length ∧ Shows h' hs' s' ∧
        (∀ a, data = some a → hs'.gen = a) := by
  have key : ∀ (g : Gen R) (a : ℕ) (h1 : Heap R), h1[a]? = some g → Untouched h h1 →
      h.length ≤ h1.length → e.initGen ρ.init = .ok g → (∀ a', data = some a' → a = a') →
      hstart env e data f pm ρ h = (do
        let g ← readArr a
        let ev ← pureE (checkGeneration env e.parallel f 0 g.rows)
        match g.rows, ev.stored with
        | r0 :: _, c0 :: _ => do
          let elite ← alloc { g with rows := [r0] }
          let (best, i) ← pureE (bestOf ev.stored)
          pure { gen := a, elite := elite, bestInd := .index i, evals := ev.stored, evalsElite := [c0],
                 bestCost := best, pm := pm, history := [best], notBetter := 0, log := [ev.calls] }
        | _, _ => pureE (.error .indexError) : HM R (HSt C R σ)) h1 →
      match start env e f pm ρ with
      | .error err => ∃ h', hstart env e data f pm ρ h = (.error err, h') ∧ Untouched h h' ∧
          h.length ≤ h'.length
      | .ok s' => ∃ hs' h', hstart env e data f pm ρ h = (.ok hs', h') ∧
          Untouched h h' ∧ h.length ≤ h'.length ∧ Shows h' hs' s' ∧
          (∀ a, data = some a → hs'.gen = a) := by
    intro g a h1 hg hu hle hi hda heq
    rw [heq, HM.bind_read hg]
    unfold start
    rw [hi]
    dsimp only
    cases hck : checkGeneration env e.parallel f 0 g.rows with
    | error err => exact ⟨h1, rfl, hu, hle⟩
    | ok ev =>
      obtain ⟨calls, evals⟩ := ev
      rw [HM.bind_pureE_ok]
      dsimp only
      cases hrows : g.rows with
      | nil => exact ⟨h1, rfl, hu, hle⟩
      | cons r0 rs =>
        cases evals with
        | nil => exact ⟨h1, rfl, hu, hle⟩
        | cons c0 cs =>
          dsimp only
          have hun : ∀ l, Untouched h (h1 ++ l) := fun l => untouched_trans hu (untouched_append h1 l) hle
          rw [HM.bind_alloc]
          rcases bestOf_cases (c0 :: cs) with ⟨h2, h3⟩ | ⟨best, h2, h3, h4⟩ | ⟨best, i, h2, h3, h4⟩
          · rw [h2, h3]
            exact ⟨_, rfl, hun _, by simp; omega⟩
          · rw [h2, h4]
            dsimp only
            rw [h3]
            exact ⟨_, rfl, hun _, by simp; omega⟩
          · rw [h2, h4]
            dsimp only
            rw [h3, HM.bind_pureE_ok]
            refine ⟨_, _, rfl, hun _, by simp; omega, ?_, hda⟩
            exact ⟨by
              show (h1 ++ _)[a]? = some g
              exact untouched_get (untouched_append h1 _) hg, by simp, rfl, rfl, rfl, rfl, rfl, rfl, rfl,
              rfl⟩
  cases data with
  | some a =>
    obtain ⟨g, hg, hi⟩ := hd a rfl
    exact key g a h hg (untouched_refl h) le_rfl hi (fun a' ha => Option.some.inj ha) rfl
  | none =>
    cases hi : e.initGen ρ.init with
    | error err =>
      unfold start hstart
      rw [hi]
      exact ⟨h, rfl, untouched_refl h, le_rfl⟩
    | ok g =>
      refine key g h.length (h ++ [g]) (by simp) (untouched_append h _) (by simp) hi
        (fun a' ha => by cases ha) ?_
      unfold hstart
      dsimp only
      rw [hi]
      rfl

/-- **C52** a run never modifies an array that existed before — in particular neither `init_data`
(`data` is its address) nor the individual a previous run reported (a view of an old array) — even if it
raises; and at the end, following the references to the best individual, the elite and the generation
gives exactly the values that the run on plain values computes. -/
theorem C52_arrays_untouched {data : Option ℕ}
    (hd : ∀ a, data = some a → ∃ g, h[a]? = some g ∧ e.initGen ρ.init = .ok g) :
    Untouched h (hminimize env e data f ftol pm ρ h).2 ∧
    match minimize env e f ftol pm ρ with
    | .error err => (hminimize env e data f ftol pm ρ h).1 = .error err
    | .ok (res, s) => ∃ hs, (hminimize env e data f ftol pm ρ h).1 = .ok hs ∧
        Shows (hminimize env e data f ftol pm ρ h).2 hs s ∧
        valueOf (hminimize env e data f ftol pm ρ h).2 hs.bestInd = some res.bestInd := by
  have hs0 := hstart_spec (env := env) (f := f) (pm := pm) hd
  unfold minimize hminimize
  cases hst : start env e f pm ρ with
  | error err =>
    rw [hst] at hs0
    obtain ⟨h1, he, hu, _⟩ := hs0
    rw [HM.bind_error he]
    exact ⟨hu, rfl⟩
  | ok s0 =>
    rw [hst] at hs0
    obtain ⟨hs1, h1, he, hu, hle, hr, _⟩ := hs0
    rw [HM.bind_ok he]
    dsimp only
    cases hn : e.mkNoise ρ.noise with
    | error err => exact ⟨hu, rfl⟩
    | ok noise =>
      rw [HM.bind_pureE_ok]
      dsimp only
      have hl := hloop_spec (env := env) (e := e) (f := f) (ftol := ftol) (ρ := ρ) (noise := noise)
        (n := (e.maxIter - 1).toNat) (t := 1) hr
      cases hlp : loop env e f ftol ρ noise (e.maxIter - 1).toNat 1 s0 with
      | error err =>
        rw [hlp] at hl
        obtain ⟨h2, h3, h4⟩ := hl
        rw [h3]
        exact ⟨untouched_trans hu h4 hle, rfl⟩
      | ok s =>
        rw [hlp] at hl
        obtain ⟨hs2, h2, h3, h4, h5⟩ := hl
        rw [h3]
        exact ⟨untouched_trans hu h4 hle, hs2, rfl, h5, h5.best⟩

/-- **C52** within a run: from the head of any pass on, no array that exists at that point — among them
the current best individual, the current elite and `init_data` — is modified by the pass. -/
theorem C52_pass_untouched {noise : Gen R → Except PyErr (Gen R)} {t : ℕ} {hs : HSt C R σ}
    {s : St R C σ} (hr : Shows h hs s) :
    Untouched h (hstep env e f ftol ρ noise t hs h).2 ∧
    (hstep env e f ftol ρ noise t hs h).2[hs.elite]? = some s.elite ∧
    valueOf (hstep env e f ftol ρ noise t hs h).2 hs.bestInd = some s.bestInd := by
  have hst := hstep_spec (env := env) (e := e) (f := f) (ftol := ftol) (ρ := ρ) (noise := noise)
    (t := t) hr
  have hu : Untouched h (hstep env e f ftol ρ noise t hs h).2 := by
    cases hs1 : step env e f ftol ρ noise t s with
    | error err =>
      rw [hs1] at hst
      obtain ⟨h', he, hu, _⟩ := hst
      rw [he]; exact hu
    | ok r =>
      rw [hs1] at hst
      obtain ⟨hs', h', he, hu, hle, hr'⟩ := hst
      rw [he]; exact hu
  exact ⟨hu, untouched_get hu hr.elite, valueOf_untouched hu hr.best⟩

/-- **C52** for the algorithms with numeric individuals: with `init_data` at address `a`, that array is
the first generation, and it is still the same when the run has ended, in whatever way. -/
theorem C52_init_data {K : Type} [Field K] [LinearOrder K] [FloorRing K] {fl : K → K}
    {cfg : BaseCfg K (List K)} {init : Draws K → Except PyErr (Gen (List K))}
    {learn : σ → Gen (List K) → Gen (List K) → Draws K → Except PyErr σ}
    {sample : σ → Draws K → Except PyErr (Gen (List K))} {e : Eda (List K) σ (Draws K)}
    {f : ℕ → List K → C} {ρ : Rand (Draws K)} {h : Heap (List K)}
    (he : mkEda fl cfg init learn sample = .ok e) {g : Gen (List K)} (hg : cfg.initData = some g)
    {a : ℕ} (ha : h[a]? = some g) :
    (hminimize env e (some a) f ftol pm ρ h).2[a]? = some g ∧
    ∀ hs h', hstart env e (some a) f pm ρ h = (.ok hs, h') → hs.gen = a := by
  have hd : ∀ a', some a = some a' → ∃ g, h[a']? = some g ∧ e.initGen ρ.init = .ok g := by
    intro a' haa
    cases haa
    exact ⟨g, ha, by rw [((mkEda_ok he).initSome g hg).2]⟩
  refine ⟨untouched_get (C52_arrays_untouched hd).1 ha, ?_⟩
  intro hs h' hst
  have := hstart_spec (env := env) (f := f) (pm := pm) hd
  cases hs0 : start env e f pm ρ with
  | error err =>
    rw [hs0] at this
    obtain ⟨h1, he1, _⟩ := this
    rw [hst] at he1
    cases he1
  | ok s0 =>
    rw [hs0] at this
    obtain ⟨hs1, h1, he1, _, _, _, hgen⟩ := this
    rw [hst] at he1
    cases he1
    exact hgen a rfl

/-- The memory of a run from `init_data`, which is the only array before the run. -/
def Ex.memRun : Except PyErr (HSt ℚ (List ℚ) (UniBin ℚ)) × Heap (List ℚ) :=
  hminimize Ex.env Ex.dataEda (some 0) Ex.cost 0 Ex.pm Ex.rand
    [{ dt := .int, cols := 2, rows := [[0, 0], [1, 0], [0, 0]] }]

/-- C52 on that run: ten arrays afterwards, the first is `init_data` as it was; `best_ind` is row 0 of
array 5, the generation sampled in the first pass; the selected individuals of the passes are arrays 4
and 8, which nothing else refers to. -/
example : Ex.memRun.1.toOption.map (fun s => (s.bestInd, s.elite, s.gen)) = some (.view 5 0, 7, 9) ∧
    Ex.memRun.2.map (fun g => g.rows) =
      [[[0, 0], [1, 0], [0, 0]], [[0, 0]],
       [[0, 0], [1, 0], [0, 0], [0, 0]], [[1, 0]], [[1, 0], [0, 0]], [[1, 1], [1, 0], [0, 1], [1, 1]],
       [[1, 1], [1, 0], [0, 1], [1, 1], [1, 0]], [[1, 1]], [[1, 1], [1, 1]],
       [[1, 1], [1, 1], [1, 1], [1, 1]]] := by
  decide +kernel

end Verif
