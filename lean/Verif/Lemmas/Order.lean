/-
Two runs that start from the same individuals in a different order.
-/
import Verif.Lemmas.Sim

namespace Verif

open PyCost

variable {R C σ Ω : Type} [PyCost C]

/-- States that differ only in the log of the calls (of equal length) and, as long as no improvement
was found, in the position reported as best individual. -/
structure Twin (s s' : St R C σ) : Prop where
  gen : s'.gen = s.gen
  evals : s'.evals = s.evals
  elite : s'.elite = s.elite
  evalsElite : s'.evalsElite = s.evalsElite
  bestCost : s'.bestCost = s.bestCost
  bestInd : ∀ r, s'.bestInd = .row r ↔ s.bestInd = .row r
  pm : s'.pm = s.pm
  history : s'.history = s.history
  notBetter : s'.notBetter = s.notBetter
  log : s'.log.flatten.length = s.log.flatten.length

variable {env : Env C} {e e' : Eda R σ Ω} {f : ℕ → R → C} {ftol : C} {pm : σ} {ρ : Rand Ω}
  {noise : Gen R → Except PyErr (Gen R)}

/-- The object with another first generation. -/
structure SameButInit (e e' : Eda R σ Ω) : Prop where
  sizeGen : e'.sizeGen = e.sizeGen
  maxIter : e'.maxIter = e.maxIter
  deadIter : e'.deadIter = e.deadIter
  truncLen : e'.truncLen = e.truncLen
  eliteLen : e'.eliteLen = e.eliteLen
  parallel : e'.parallel = e.parallel
  mkNoise : e'.mkNoise = e.mkNoise
  updatePm : e'.updatePm = e.updatePm
  sample : e'.sample = e.sample

theorem truncation_twin (hee : SameButInit e e') {s s' : St R C σ} (h : Twin s s') :
    ExRel Twin (truncation env e s) (truncation env e' s') := by
  unfold truncation
  rw [h.gen, h.elite]
  cases s.gen.concat s.elite with
  | error err => exact .error _
  | ok g =>
    simp only [h.evals, h.evalsElite, hee.truncLen, hee.eliteLen]
    exact .ok ⟨rfl, rfl, rfl, rfl, h.bestCost, h.bestInd, h.pm, h.history, h.notBetter, h.log⟩

theorem step_twin (hee : SameButInit e e') (t : ℕ) {s s' : St R C σ}
    (h : ExRel Twin (truncation env e s) (truncation env e' s')) :
    ExRel (fun x y => Twin x.1 y.1 ∧ y.2 = x.2) (step env e f ftol ρ noise t s)
      (step env e' f ftol ρ noise t s') := by
  unfold step
  generalize truncation env e s = x at h
  generalize truncation env e' s' = y at h
  cases h with
  | error err => exact .error _
  | @ok s1 s1' h =>
  simp only [h.gen, h.elite, h.pm, hee.updatePm, hee.sample, hee.parallel, h.log, h.bestCost,
    h.history, h.notBetter, hee.deadIter, h.evalsElite]
  cases noise s1.gen with
  | error err => exact .error _
  | ok noisy =>
  dsimp only
  cases e.updatePm s1.pm noisy s1.elite (ρ.learn t) with
  | error err => exact .error _
  | ok pm =>
  dsimp only
  cases e.sample pm (ρ.sample t) with
  | error err => exact .error _
  | ok gen =>
  dsimp only
  cases checkGeneration env e.parallel f s1.log.flatten.length gen.rows with
  | error err => exact .error _
  | ok ev =>
  obtain ⟨calls, evals⟩ := ev
  dsimp only
  cases pyMin evals with
  | none => exact .error _
  | some best =>
  dsimp only
  cases whereFirst evals best with
  | none => exact .error _
  | some i =>
  dsimp only
  cases gen.rows[i]? with
  | none => exact .error _
  | some ind =>
  dsimp only
  split
  · exact .ok ⟨⟨rfl, rfl, rfl, rfl, rfl, fun _ => Iff.rfl, rfl, rfl, rfl, by
      simp [h.log]⟩, rfl⟩
  · exact .ok ⟨⟨rfl, rfl, rfl, rfl, rfl, h.bestInd, rfl, rfl, rfl, by
      simp [h.log]⟩, rfl⟩

theorem loop_twin (hee : SameButInit e e') : ∀ (n t : ℕ) {s s' : St R C σ}, Twin s s' →
    ExRel Twin (loop env e f ftol ρ noise n t s) (loop env e' f ftol ρ noise n t s')
  | 0, _, _, _, h => .ok h
  | n + 1, t, s, s', h => by
    have hs := step_twin (env := env) (f := f) (ftol := ftol) (ρ := ρ) (noise := noise) hee t
      (truncation_twin (env := env) hee h)
    unfold loop
    generalize step env e f ftol ρ noise t s = x at hs
    generalize step env e' f ftol ρ noise t s' = y at hs
    cases hs with
    | error err => exact .error _
    | @ok a b hab =>
      obtain ⟨a, ba⟩ := a
      obtain ⟨b, bb⟩ := b
      obtain ⟨h1, h2⟩ := hab
      obtain rfl : bb = ba := h2
      cases bb with
      | true => exact .ok h1
      | false => exact loop_twin hee n (t + 1) h1

/-! ### Sorting without ties -/

section sorted

variable [LawfulCost C] {α : Type}

/-- Numbers in sorted order: nothing later is smaller. -/
def CostSorted (l : List (α × C)) : Prop := l.Pairwise (fun a b => lt b.2 a.2 = false)

/-- A list sorted by cost in which equal costs belong to equal entries is determined by its entries. -/
theorem sorted_unique {l l' : List (α × C)} (hp : l.Perm l') (h : CostSorted l) (h' : CostSorted l')
    (hn : ∀ x ∈ l, IsNum x.2) (hinj : ∀ x ∈ l, ∀ y ∈ l, eq x.2 y.2 = true → x = y) : l = l' := by
  refine List.Perm.eq_of_pairwise ?_ h h' hp
  intro a b ha hb h1 h2
  have hb' := hp.mem_iff.2 hb
  exact hinj a ha b hb' ((LawfulCost.eq_iff _ _).2 ⟨hn a ha, hn b hb', h2, h1⟩)

/-- The selection of a pool without ties is a prefix of its sorted list. -/
theorem truncation_sorted (hv : env.Valid) {s : St R C σ} (ha : Aligned s)
    (hc : s.gen.cols = s.elite.cols) {P : List (R × C)} (hP : P.Perm (poolOf s)) (hs : CostSorted P)
    (hn : ∀ x ∈ P, IsNum x.2) (hinj : ∀ x ∈ P, ∀ y ∈ P, eq x.2 y.2 = true → x = y) :
    truncation env e s = .ok { s with
      elite := ⟨s.gen.dt.promote s.elite.dt, s.gen.cols,
        (P.take (sliceLen P.length e.eliteLen)).map Prod.fst⟩
      gen := ⟨s.gen.dt.promote s.elite.dt, s.gen.cols,
        (P.take (sliceLen P.length e.truncLen)).map Prod.fst⟩
      evalsElite := (P.take (sliceLen P.length e.eliteLen)).map Prod.snd
      evals := (P.take (sliceLen P.length e.truncLen)).map Prod.snd } := by
  obtain ⟨Q, h1, h2, h3, h4⟩ := argsort_pool hv.argsort (s.gen.rows ++ s.elite.rows)
    (s.evals ++ s.evalsElite) (by simp [ha.1, ha.2])
  have hPQ : P = Q := sorted_unique (hP.trans h1.symm) hs (h2.imp (fun h => h.1)) hn hinj
  subst hPQ
  unfold truncation Gen.concat
  rw [if_pos hc]
  simp only [Gen.takeIdx]
  rw [h3, (h4 _).1, (h4 _).2, (h4 _).1, (h4 _).2]

end sorted

/-! ### The first generation -/

section first

variable [LawfulCost C] [UniformCost C] {g : R → C} {d : Gen R}

omit [PyCost C] in
theorem callRows_pure (g : R → C) (k : ℕ) (rows : List R) :
    callRows (fun _ r => g r) k rows = rows.map g := by
  unfold callRows
  apply List.ext_getElem?
  intro i
  simp

/-- The state after the first evaluation of the generation `d` whose first row is `r0`. -/
def firstState (g : R → C) (d : Gen R) (pm : σ) (r0 : R) (best : C) (i : ℕ) (calls : List (R × C)) :
    St R C σ :=
  { gen := d, evals := d.rows.map g, elite := { d with rows := [r0] }, evalsElite := [g r0],
    bestCost := best, bestInd := .index i, pm := pm, history := [best], notBetter := 0,
    log := [calls] }

/-- The state after the first evaluation for a cost function that depends only on the individual. -/
theorem start_pure (hv : env.Valid) (hi : e.initGen ρ.init = .ok d) (hn : ∀ r ∈ d.rows, IsNum (g r)) :
    (∃ r0 best i calls, d.rows.head? = some r0 ∧ pyMin (d.rows.map g) = some best ∧
      calls.length = d.rows.length ∧ start env e (fun _ r => g r) pm ρ = .ok
        (firstState g d pm r0 best i calls)) ∨
    ((d.rows = [] ∨ e.parallel = true ∧ d.rows.length < env.cpu) ∧
      start env e (fun _ r => g r) pm ρ = .error .valueError) := by
  by_cases hok : d.rows = [] ∨ e.parallel = true ∧ d.rows.length < env.cpu
  · refine .inr ⟨hok, ?_⟩
    unfold start checkGeneration
    rw [hi]
    dsimp only
    cases hp : e.parallel with
    | true =>
      have hl : d.rows.length < env.cpu := by
        rcases hok with h | h
        · rw [h]; exact hv.cpu
        · exact h.2
      rw [if_pos rfl, parallelApply_error _ _ _ _ _ hl (hv.sched 0)]
    | false =>
      rcases hok with h | h
      · simp only [Bool.false_eq_true, if_false]
        rw [h, applyAlong_nil]
      · rw [hp] at h; exact absurd h.1 (by simp)
  · left
    simp only [not_or, not_and, not_lt] at hok
    obtain ⟨ev, hck⟩ := check_isOk (f := fun _ r => g r) (k := 0) hv hok.1 hok.2
    have hst := check_stored hv hck
    have hcl := (check_calls hv hck).2
    rw [callRows_pure] at hst hcl
    obtain ⟨r0, rs, hr⟩ := List.exists_cons_of_ne_nil hok.1
    obtain ⟨best, hb⟩ := pyMin_isSome (ev := d.rows.map g) (by rw [hr]; simp)
    have hbn : IsNum best := by
      obtain ⟨r, hr, rfl⟩ := List.mem_map.1 (pyMin_mem hb)
      exact hn r hr
    obtain ⟨i, hi'⟩ := whereFirst_isSome (pyMin_mem hb) hbn
    obtain ⟨calls, stored⟩ := ev
    obtain rfl : stored = d.rows.map g := hst
    refine ⟨r0, best, i, calls, by rw [hr]; rfl, hb, ?_, ?_⟩
    · have hcl : calls = d.rows.zip (d.rows.map g) := hcl
      rw [hcl]; simp
    · unfold start
      rw [hi]
      dsimp only
      rw [hck]
      dsimp only
      rw [hb]
      dsimp only
      rw [hi']
      have : d.rows.map g = g r0 :: rs.map g := by rw [hr]; rfl
      simp only [hr, List.map_cons, firstState]

omit [UniformCost C] in
theorem pyMin_perm {l l' : List R} (hp : l.Perm l') (hn : ∀ r ∈ l, IsNum (g r))
    (hinj : ∀ r ∈ l, ∀ r' ∈ l, eq (g r) (g r') = true → r = r') {b b' : C}
    (h : pyMin (l.map g) = some b) (h' : pyMin (l'.map g) = some b') : b = b' := by
  obtain ⟨r, hr, rfl⟩ := List.mem_map.1 (pyMin_mem h)
  obtain ⟨r', hr', rfl⟩ := List.mem_map.1 (pyMin_mem h')
  have hr'' := hp.mem_iff.2 hr'
  have h1 := pyMin_le h (g r') (List.mem_map.2 ⟨r', hr'', rfl⟩)
  have h2 := pyMin_le h' (g r) (List.mem_map.2 ⟨r, hp.mem_iff.1 hr, rfl⟩)
  rw [hinj r hr r' hr'' ((LawfulCost.eq_iff _ _).2 ⟨hn r hr, hn r' hr'', h2, h1⟩)]

/-- What two runs from the same individuals in another order have in common. -/
def SameOutcome (x y : Except PyErr (EdaResult R C × St R C σ)) : Prop :=
  ExRel (fun a b => b.1.bestCost = a.1.bestCost ∧ b.1.history = a.1.history ∧ b.1.nFev = a.1.nFev ∧
    (∀ r, b.1.bestInd = .row r ↔ a.1.bestInd = .row r) ∧ b.2.pm = a.2.pm) x y

/-- Two runs whose first selections agree. -/
theorem minimize_reordered (hv : env.Valid) (hee : SameButInit e e') {d' : Gen R}
    (hi : e.initGen ρ.init = .ok d) (hi' : e'.initGen ρ.init = .ok d') (hdt : d'.dt = d.dt)
    (hcols : d'.cols = d.cols) (hp : d'.rows.Perm d.rows) (hn : ∀ r ∈ d.rows, IsNum (g r))
    (hinj : ∀ r ∈ d.rows, ∀ r' ∈ d.rows, eq (g r) (g r') = true → r = r')
    (hsel : ∀ r0 r0', d.rows.head? = some r0 → d'.rows.head? = some r0' →
      ∃ P P' : List (R × C), P.Perm ((d.rows ++ [r0]).map (fun r => (r, g r))) ∧
        P'.Perm ((d.rows ++ [r0']).map (fun r => (r, g r))) ∧ CostSorted P ∧ CostSorted P' ∧
        P'.take (sliceLen P.length e.truncLen) = P.take (sliceLen P.length e.truncLen) ∧
        P'.take (sliceLen P.length e.eliteLen) = P.take (sliceLen P.length e.eliteLen)) :
    SameOutcome (minimize env e (fun _ r => g r) ftol pm ρ)
      (minimize env e' (fun _ r => g r) ftol pm ρ) := by
  have hn' : ∀ r ∈ d'.rows, IsNum (g r) := fun r hr => hn r (hp.mem_iff.1 hr)
  unfold minimize
  rcases start_pure (pm := pm) hv hi hn with ⟨r0, best, i, calls, h1, h2, h3, h4⟩ | ⟨h1, h2⟩
  · rcases start_pure (pm := pm) hv hi' hn' with ⟨r0', best', i', calls', h1', h2', h3', h4'⟩ | ⟨h1', _⟩
    · have hbb : best = best' := pyMin_perm hp.symm hn hinj h2 h2'
      subst hbb
      rw [h4, h4']
      dsimp only
      rw [hee.mkNoise]
      cases e.mkNoise ρ.noise with
      | error err => exact .error _
      | ok noise =>
      dsimp only
      rw [hee.maxIter, hee.sizeGen]
      cases hm : (e.maxIter - 1).toNat with
      | zero =>
        exact .ok ⟨rfl, rfl, rfl, fun r => by simp [firstState], rfl⟩
      | succ n =>
        obtain ⟨P, P', p1, p1', p2, p2', t1, t2⟩ := hsel r0 r0' h1 h1'
        have hr0 : r0 ∈ d.rows := List.mem_of_mem_head? h1
        have hr0' : r0' ∈ d.rows := hp.mem_iff.1 (List.mem_of_mem_head? h1')
        have mem : ∀ {a : R} {Q : List (R × C)}, a ∈ d.rows →
            Q.Perm ((d.rows ++ [a]).map (fun r => (r, g r))) →
            ∀ x ∈ Q, x.1 ∈ d.rows ∧ x.2 = g x.1 := by
          intro a Q ha hQ x hx
          obtain ⟨r, hr, rfl⟩ := List.mem_map.1 (hQ.mem_iff.1 hx)
          refine ⟨?_, rfl⟩
          rcases List.mem_append.1 hr with h | h
          · exact h
          · rw [List.mem_singleton.1 h]; exact ha
        have num : ∀ {a : R} {Q : List (R × C)}, a ∈ d.rows →
            Q.Perm ((d.rows ++ [a]).map (fun r => (r, g r))) → ∀ x ∈ Q, IsNum x.2 := by
          intro a Q ha hQ x hx
          obtain ⟨m1, m2⟩ := mem ha hQ x hx
          rw [m2]; exact hn _ m1
        have inj : ∀ {a : R} {Q : List (R × C)}, a ∈ d.rows →
            Q.Perm ((d.rows ++ [a]).map (fun r => (r, g r))) →
            ∀ x ∈ Q, ∀ y ∈ Q, eq x.2 y.2 = true → x = y := by
          intro a Q ha hQ x hx y hy hxy
          obtain ⟨m1, m2⟩ := mem ha hQ x hx
          obtain ⟨k1, k2⟩ := mem ha hQ y hy
          rw [m2, k2] at hxy
          have h := hinj _ m1 _ k1 hxy
          exact Prod.ext h (by rw [m2, k2, h])
        have pool : ∀ (rows : List R) (a : R),
            (rows ++ [a]).zip (rows.map g ++ [g a]) = (rows ++ [a]).map (fun r => (r, g r)) := by
          intro rows a
          have : rows.map g ++ [g a] = (rows ++ [a]).map g := by simp
          rw [this, List.zip_map_right]
          induction (rows ++ [a]) with
          | nil => rfl
          | cons x xs ih => simpa using ih
        have hlen : P'.length = P.length := by rw [p1.length_eq, p1'.length_eq]; simp
        have T1 := truncation_sorted (env := env) (e := e) hv (s := firstState g d pm r0 best i calls)
          (P := P) ⟨by simp [firstState], by simp [firstState]⟩ rfl
          (by unfold poolOf firstState; dsimp only; rw [pool]; exact p1) p2 (num hr0 p1)
          (inj hr0 p1)
        have T2 := truncation_sorted (env := env) (e := e') hv (s := firstState g d' pm r0' best i' calls')
          (P := P') ⟨by simp [firstState], by simp [firstState]⟩ rfl (by
            unfold poolOf firstState; dsimp only; rw [pool]
            exact p1'.trans ((hp.symm.append_right _).map _)) p2' (num hr0' p1') (inj hr0' p1')
        rw [hlen, hee.truncLen, hee.eliteLen, t1, t2] at T2
        dsimp only [firstState] at T1 T2
        have hst := step_twin (env := env) (f := fun _ r => g r) (ftol := ftol) (ρ := ρ)
          (noise := noise) hee 1 (s := firstState g d pm r0 best i calls)
          (s' := firstState g d' pm r0' best i' calls') (by
            unfold firstState
            rw [T1, T2, hdt, hcols]
            exact .ok ⟨rfl, rfl, rfl, rfl, rfl, by simp, rfl, rfl, rfl, by simp [h3, h3', hp.length_eq]⟩)
        unfold loop
        revert hst
        generalize step env e (fun _ r => g r) ftol ρ noise 1 _ = x
        generalize step env e' (fun _ r => g r) ftol ρ noise 1 _ = y
        intro hst
        cases hst with
        | error err => exact .error _
        | @ok a b hab =>
          obtain ⟨a, ba⟩ := a
          obtain ⟨b, bb⟩ := b
          obtain ⟨w1, w2⟩ := hab
          obtain rfl : bb = ba := w2
          have fin : ∀ {a b : St R C σ}, Twin a b → SameOutcome (Except.ok
              ((⟨a.bestInd, a.bestCost, a.history.length * e.sizeGen, a.history⟩ : EdaResult R C), a))
              (Except.ok ((⟨b.bestInd, b.bestCost, b.history.length * e.sizeGen, b.history⟩ : EdaResult R C), b)) :=
            fun h => .ok ⟨h.bestCost, h.history, by rw [h.history], h.bestInd, h.pm⟩
          cases bb with
          | true => exact fin w1
          | false =>
            dsimp only
            have hl := loop_twin (env := env) (f := fun _ r => g r) (ftol := ftol) (ρ := ρ)
              (noise := noise) hee n 2 w1
            revert hl
            generalize loop env e (fun _ r => g r) ftol ρ noise n (1 + 1) a = x
            generalize loop env e' (fun _ r => g r) ftol ρ noise n (1 + 1) b = y
            intro hl
            cases hl with
            | error err => exact .error _
            | ok h => exact fin h
    · exfalso
      rcases h1' with h | ⟨_, h⟩
      · rw [h] at hp
        have := hp.symm.eq_nil
        rw [this] at h1
        cases h1
      · rename_i hpar
        rw [hee.parallel] at hpar
        have : start env e (fun _ r => g r) pm ρ = .error .valueError := by
          unfold start checkGeneration
          rw [hi, hpar]
          dsimp only
          rw [if_pos rfl, parallelApply_error _ _ _ _ _ (by rw [← hp.length_eq]; exact h) (hv.sched 0)]
        rw [this] at h4
        cases h4
  · rcases start_pure (pm := pm) hv hi' hn' with ⟨r0', best', i', calls', h1', h2', h3', h4'⟩ | ⟨_, h2'⟩
    · exfalso
      rcases h1 with h | ⟨hpar, h⟩
      · rw [h] at hp
        rw [hp.eq_nil] at h1'
        cases h1'
      · have : start env e' (fun _ r => g r) pm ρ = .error .valueError := by
          unfold start checkGeneration
          rw [hi', hee.parallel, hpar]
          dsimp only
          rw [if_pos rfl, parallelApply_error _ _ _ _ _ (by rw [hp.length_eq]; exact h) (hv.sched 0)]
        rw [this] at h4'
        cases h4'
    · rw [h2, h2']
      exact .error _

end first

end Verif
