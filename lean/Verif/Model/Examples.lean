/-
Concrete runs used to show that the hypotheses of the property theorems can be met.
`decide +kernel` evaluates the model in Lean's kernel.
-/
import Verif.Model.UniBin

namespace Verif.Ex

/-- Computes the state at the head of pass `n + 1` (see `heads_visited`). -/
def heads {R C σ Ω : Type} [PyCost C] (env : Env C) (e : Eda R σ Ω) (f : ℕ → R → C) (ftol : C)
    (pm : σ) (ρ : Rand Ω) : ℕ → Except PyErr (St R C σ)
  | 0 => start env e f pm ρ
  | n + 1 =>
    match heads env e f ftol pm ρ n with
    | .error err => .error err
    | .ok s =>
      match e.mkNoise ρ.noise with
      | .error err => .error err
      | .ok nz =>
        match step env e f ftol ρ nz (n + 1) s with
        | .error err => .error err
        | .ok (s', false) => .ok s'
        | .ok (_, true) => .error .exception

theorem heads_visited {R C σ Ω : Type} [PyCost C] {env : Env C} {e : Eda R σ Ω} {f : ℕ → R → C}
    {ftol : C} {pm : σ} {ρ : Rand Ω} {n : ℕ} {s : St R C σ}
    (h : heads env e f ftol pm ρ n = .ok s) : Visited env e f ftol pm ρ (n + 1) s := by
  induction n generalizing s with
  | zero => exact .first h
  | succ n ih =>
    unfold heads at h
    split at h
    · simp at h
    rename_i s1 h1
    split at h
    · simp at h
    rename_i nz hn
    split at h
    · simp at h
    · rename_i s' hs
      simp only [Except.ok.injEq] at h
      subst h
      exact .next (ih h1) hn hs
    · simp at h

/-- A run whose heads 1..n+1 exist also has the passes between them. -/
theorem heads_step {R C σ Ω : Type} [PyCost C] {env : Env C} {e : Eda R σ Ω} {f : ℕ → R → C}
    {ftol : C} {pm : σ} {ρ : Rand Ω} {n : ℕ} {s' : St R C σ}
    (h : heads env e f ftol pm ρ (n + 1) = .ok s') :
    ∃ s nz, heads env e f ftol pm ρ n = .ok s ∧ e.mkNoise ρ.noise = .ok nz ∧
      step env e f ftol ρ nz (n + 1) s = .ok (s', false) := by
  unfold heads at h
  split at h
  · simp at h
  rename_i s1 h1
  split at h
  · simp at h
  rename_i nz hn
  split at h
  · simp at h
  · rename_i s2 hs
    simp only [Except.ok.injEq] at h
    subst h
    exact ⟨s1, nz, h1, hn, hs⟩
  · simp at h

theorem ok_of_isSome {α : Type} {x : Except PyErr α} (h : x.toOption.isSome = true) :
    ∃ a, x = .ok a := by
  cases x with
  | error e => simp [Except.toOption] at h
  | ok a => exact ⟨a, rfl⟩

/-- Read off computed facts about a value that exists. -/
theorem facts_of {α β : Type} {x : Except PyErr α} {g : α → β} {y : β}
    (h : x.toOption.map g = some y) : ∃ a, x = .ok a ∧ g a = y := by
  cases x with
  | error e => simp [Except.toOption] at h
  | ok a => exact ⟨a, rfl, by simpa [Except.toOption] using h⟩

/-- A concrete machine: stable sort, two CPUs, workers finish in reverse order. -/
def env : Env ℚ := { argsort := stableArgsort, cpu := 2, sched := fun _ => [1, 0] }

theorem env_valid : env.Valid where
  argsort := stableArgsort_isArgsort
  cpu := by decide
  sched := by
    intro k i hi
    have hi : i < 2 := hi
    have : i = 0 ∨ i = 1 := by omega
    rcases this with rfl | rfl <;> simp [env]

/-- UMDAd with 4 individuals of 2 bits, 3 generations; half is selected, one elite. -/
def cfg : UMDAdCfg ℚ :=
  { base := { sizeGen := 4, maxIter := 3, deadIter := 2, nVars := 2, alpha := 1/2,
              eliteFactor := 1/4, parallel := false, initData := none, wNoise := none }
    vector := none, lower := 1/5, upper := 4/5 }

def parCfg : UMDAdCfg ℚ := { cfg with base := { cfg.base with parallel := true } }

/-- Same, started from three given individuals instead of four random ones. -/
def dataCfg : UMDAdCfg ℚ :=
  { cfg with base := { cfg.base with
      initData := some { dt := .int, cols := 2, rows := [[0, 0], [1, 0], [0, 0]] } } }

theorem cfg_ok : (UMDAd id cfg).toOption.isSome = true := by decide +kernel
theorem parCfg_ok : (UMDAd id parCfg).toOption.isSome = true := by decide +kernel
theorem dataCfg_ok : (UMDAd id dataCfg).toOption.isSome = true := by decide +kernel

def eda : Eda (List ℚ) (UniBin ℚ) (Draws ℚ) := ((UMDAd id cfg).toOption.get cfg_ok).1
def pm : UniBin ℚ := ((UMDAd id cfg).toOption.get cfg_ok).2
def parEda : Eda (List ℚ) (UniBin ℚ) (Draws ℚ) := ((UMDAd id parCfg).toOption.get parCfg_ok).1
def dataEda : Eda (List ℚ) (UniBin ℚ) (Draws ℚ) := ((UMDAd id dataCfg).toOption.get dataCfg_ok).1

/-- Draws for which the second generation contains the optimum `[1, 1]`. -/
def rand : Rand (Draws ℚ) :=
  { init := fun i j => if (i + j) % 2 = 0 then 1/4 else 3/4
    noise := fun _ _ => 0
    learn := fun _ _ _ => 0
    sample := fun t i j => if (t + i + j) % 3 = 0 then 3/4 else 1/10 }

/-- Draws for which no generation improves on the first one. -/
def randFlat : Rand (Draws ℚ) :=
  { rand with sample := fun _ i j => if (i + j) % 2 = 0 then 1/10 else 9/10 }

/-- Number of zeros plus 5 (so that costs are positive), to be minimised. -/
def cost (_ : ℕ) (r : List ℚ) : ℚ := 7 - r.sum

/-- Draws for which every generation after the first consists of `[0, 0]` only. -/
def randWorse : Rand (Draws ℚ) := { rand with sample := fun _ _ _ => 9/10 }

abbrev Out := Except PyErr (EdaResult (List ℚ) ℚ × St (List ℚ) ℚ (UniBin ℚ))

def run : Out := minimize env eda cost 0 pm rand
def runFlat : Out := minimize env eda cost 0 pm randFlat
def runData : Out := minimize env dataEda cost 0 pm rand
def runPar : Out := minimize env parEda cost 0 pm rand

/-- A run with a large tolerance. -/
def runTol : Out := minimize env eda cost (1/2) pm randWorse

theorem runTol_some : runTol.toOption.isSome = true := by decide +kernel

theorem runTol_facts : runTol.toOption.map (fun x => (x.1.history, x.1.bestCost))
    = some ([6, 7, 7], 7) := by decide +kernel

/-- A run with a constant positive cost and a run with a constant negative cost (`dead_iter = 1`). -/
def edaDead : Eda (List ℚ) (UniBin ℚ) (Draws ℚ) := { eda with deadIter := 1 }
def runPos : Out := minimize env edaDead (fun _ _ => 5) (1/100) pm rand
def runNeg : Out := minimize env edaDead (fun _ _ => -5) (1/100) pm rand

theorem runPos_some : runPos.toOption.isSome = true := by decide +kernel
theorem runNeg_some : runNeg.toOption.isSome = true := by decide +kernel
theorem runPos_facts : runPos.toOption.map (fun x => x.1.history) = some [5, 5, 5] := by
  decide +kernel
theorem runNeg_facts : runNeg.toOption.map (fun x => x.1.history) = some [-5, -5] := by
  decide +kernel

theorem run_some : run.toOption.isSome = true := by decide +kernel
theorem runFlat_some : runFlat.toOption.isSome = true := by decide +kernel
theorem runData_some : runData.toOption.isSome = true := by decide +kernel
theorem runPar_some : runPar.toOption.isSome = true := by decide +kernel

theorem run_ok : ∃ res s, minimize env eda cost 0 pm rand = .ok (res, s) := by
  obtain ⟨⟨res, s⟩, h⟩ := ok_of_isSome run_some
  exact ⟨res, s, h⟩

/-- The run improves: history, best cost and best individual. -/
theorem run_facts : run.toOption.map (fun x => (x.1.history, x.1.bestCost, x.1.bestInd, x.1.nFev))
    = some ([6, 5, 5], 5, .row [1, 1], 12) := by decide +kernel

/-- The flat run returns the position of an individual instead of an individual. -/
theorem runFlat_facts : runFlat.toOption.map (fun x => (x.1.history, x.1.bestCost, x.1.bestInd))
    = some ([6, 6, 6], 6, .index 0) := by decide +kernel

theorem runData_facts : runData.toOption.map
    (fun x => (x.1.history, x.1.nFev, x.2.log.flatten.length))
    = some ([6, 5, 5], 12, 11) := by decide +kernel

/-- The parallel run gives the same result. -/
theorem runPar_facts : runPar.toOption.map (fun x => (x.1.history, x.1.bestCost, x.1.bestInd, x.1.nFev))
    = some ([6, 5, 5], 5, .row [1, 1], 12) := by decide +kernel

/-! Loop-head states of the concrete run. -/

def start0 : Except PyErr (St (List ℚ) ℚ (UniBin ℚ)) := start env eda cost pm rand
def noiseFn : Except PyErr (Gen (List ℚ) → Except PyErr (Gen (List ℚ))) := eda.mkNoise rand.noise
def head2 : Except PyErr (St (List ℚ) ℚ (UniBin ℚ) × Bool) :=
  match start0, noiseFn with
  | .ok s0, .ok nz => step env eda cost 0 rand nz 1 s0
  | _, _ => .error .exception
def sel2 : Except PyErr (St (List ℚ) ℚ (UniBin ℚ)) :=
  match head2 with
  | .ok (s, _) => truncation env eda s
  | .error err => .error err

theorem head2_facts : head2.toOption.map (fun x => x.2) = some false := by decide +kernel
theorem sel2_facts : sel2.toOption.map
    (fun x => (x.elite.rows, x.evalsElite, x.gen.rows, x.evals, x.log.flatten.map Prod.snd))
    = some ([[1, 1]], [5], [[1, 1], [1, 1]], [5, 5], [6, 6, 6, 6, 5, 6, 6, 5]) := by decide +kernel

/-- The state at the head of the second pass of the concrete run, and its selection. -/
theorem visited2 : ∃ s s1, Visited env eda cost 0 pm rand 2 s ∧ truncation env eda s = .ok s1 ∧
    s1.elite.rows = [[1, 1]] ∧ s1.evalsElite = [5] ∧ s1.gen.rows = [[1, 1], [1, 1]] ∧
    s1.evals = [5, 5] ∧ s1.log.flatten.map Prod.snd = [6, 6, 6, 6, 5, 6, 6, 5] := by
  have h1 := head2_facts
  have h2 := sel2_facts
  unfold sel2 at h2
  cases h0 : start0 with
  | error err => unfold head2 at h1; rw [h0] at h1; simp [Except.toOption] at h1
  | ok s0 =>
    cases hn : noiseFn with
    | error err => unfold head2 at h1; rw [h0, hn] at h1; simp [Except.toOption] at h1
    | ok nz =>
      have hh : head2 = step env eda cost 0 rand nz 1 s0 := by unfold head2; rw [h0, hn]
      rw [hh] at h1 h2
      cases hs : step env eda cost 0 rand nz 1 s0 with
      | error err => rw [hs] at h1; simp [Except.toOption] at h1
      | ok sb =>
        obtain ⟨s, b⟩ := sb
        rw [hs] at h1 h2
        simp only [Except.toOption, Option.map_some, Option.some.injEq] at h1
        subst h1
        simp only at h2
        cases ht : truncation env eda s with
        | error err => rw [ht] at h2; simp [Except.toOption] at h2
        | ok s1 =>
          rw [ht] at h2
          simp only [Except.toOption, Option.map_some, Option.some.injEq, Prod.mk.injEq] at h2
          exact ⟨s, s1, .next (.first h0) hn hs, ht, h2⟩

/-- UMDAd without clipping (bounds 0 and 1). -/
def cfg01 : UMDAdCfg ℚ := { cfg with lower := 0, upper := 1 }
theorem cfg01_some : (UMDAd id cfg01).toOption.isSome = true := by decide +kernel
def eda01 : Eda (List ℚ) (UniBin ℚ) (Draws ℚ) := ((UMDAd id cfg01).toOption.get cfg01_some).1
def pm01 : UniBin ℚ := ((UMDAd id cfg01).toOption.get cfg01_some).2

theorem get_ok {α : Type} {x : Except PyErr α} (h : x.toOption.isSome = true) :
    x = .ok (x.toOption.get h) := by
  cases x with
  | error e => simp [Except.toOption] at h
  | ok a => rfl

theorem cfg01_ok : UMDAd id cfg01 = .ok (eda01, pm01) := get_ok cfg01_some
theorem cfg_mk : UMDAd id cfg = .ok (eda, pm) := get_ok cfg_ok
theorem dataCfg_mk : UMDAd id dataCfg = .ok (dataEda, ((UMDAd id dataCfg).toOption.get dataCfg_ok).2) :=
  get_ok dataCfg_ok

theorem rand_unit : ∀ t, ∀ i j, 0 ≤ rand.sample t i j ∧ rand.sample t i j < 1 := by
  intro t i j
  have h : rand.sample t i j = if (t + i + j) % 3 = 0 then (3/4 : ℚ) else 1/10 := rfl
  rw [h]
  split <;> norm_num

/-- Selection of the second pass and generation produced by it, bounds 0 and 1. -/
def sel01 : Except PyErr (St (List ℚ) ℚ (UniBin ℚ)) :=
  match heads env eda01 cost 0 pm01 rand 1 with
  | .error err => .error err
  | .ok s => truncation env eda01 s
def step01 : Except PyErr (St (List ℚ) ℚ (UniBin ℚ) × Bool) :=
  match heads env eda01 cost 0 pm01 rand 1, eda01.mkNoise rand.noise with
  | .ok s, .ok nz => step env eda01 cost 0 rand nz 2 s
  | _, _ => .error .exception
theorem sel01_facts : sel01.toOption.map (fun s => s.gen.rows) = some [[1, 1], [1, 1]] := by
  decide +kernel
theorem step01_facts : step01.toOption.map (fun s => s.1.gen.rows) =
    some [[1, 1], [1, 1], [1, 1], [1, 1]] := by decide +kernel

end Verif.Ex
