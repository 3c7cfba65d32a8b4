/-
The generic loop of eda.py once more, with arrays in memory: variables hold references, `+=` works in
place, and a row of an array is a view.  Used for C52; `Verif/Model/Core.lean` is the same code with
arrays as values.
-/
import Verif.Model.Core

namespace Verif

/-- A two-dimensional array in memory is known by its address: the position in this list. -/
abbrev Heap (R : Type) := List (Gen R)

/-- A Python computation: it changes the memory, also when it raises. -/
def HM (R α : Type) := Heap R → Except PyErr α × Heap R

instance (R : Type) : Monad (HM R) where
  pure x := fun h => (.ok x, h)
  bind m k := fun h =>
    match m h with
    | (.error err, h') => (.error err, h')
    | (.ok x, h') => k x h'

variable {R C σ Ω : Type}

/-- A new array. -/
def alloc (g : Gen R) : HM R ℕ := fun h => (.ok h.length, h ++ [g])

/-- The contents of an array (there are no dangling references in Python). -/
def readArr (a : ℕ) : HM R (Gen R) := fun h =>
  match h[a]? with
  | some g => (.ok g, h)
  | none => (.error .notModelled, h)

/-- In-place modification. -/
def writeArr (a : ℕ) (g : Gen R) : HM R Unit := fun h => (.ok (), h.set a g)

/-- A computation that does not touch the memory. -/
def pureE {α : Type} (x : Except PyErr α) : HM R α := fun h => (x, h)

/-- `self.best_ind_global`: an `np.int64` (eda.py:174) or a view of a row (eda.py:200, :203). -/
inductive BestRef where
  | index (i : ℕ)
  | view (addr row : ℕ)
  deriving DecidableEq, Repr

/-- The attributes of the object during `minimize`; `gen` and `elite` are references. -/
structure HSt (C R σ : Type) where
  gen : ℕ
  elite : ℕ
  bestInd : BestRef
  evals : List C
  evalsElite : List C
  bestCost : C
  pm : σ
  history : List C
  notBetter : ℤ
  log : List (List (R × C))

/-- eda.py:93-108 `_truncation`: `np.concatenate` and indexing with an array both make copies. -/
def htruncation [PyCost C] (env : Env C) (e : Eda R σ Ω) (s : HSt C R σ) : HM R (HSt C R σ) := do
  let g ← readArr s.gen
  let el ← readArr s.elite
  let cat ← pureE (g.concat el)
  let gen ← alloc cat
  let evals := s.evals ++ s.evalsElite
  let ordering := env.argsort evals
  let bt := sliceTo ordering e.truncLen
  let be := sliceTo ordering e.eliteLen
  let g ← readArr gen
  let elite ← alloc (g.takeIdx be)
  let g ← readArr gen
  let gen ← alloc (g.takeIdx bt)
  pure { s with gen := gen, elite := elite, evalsElite := takeIdx evals be, evals := takeIdx evals bt }

/-- `min(evaluations)` and its first position (eda.py:171-174, :194-199). -/
def bestOf [PyCost C] (evals : List C) : Except PyErr (C × ℕ) :=
  match pyMin evals with
  | none => .error .valueError
  | some best =>
    match whereFirst evals best with
    | none => .error .indexError
    | some i => .ok (best, i)

/-- eda.py:162-174.  With `init_data` (at address `data`) the first generation *is* that array
(eda.py:84-85); the first elite is a copy of its first row. -/
def hstart [PyCost C] (env : Env C) (e : Eda R σ Ω) (data : Option ℕ) (f : ℕ → R → C) (pm : σ)
    (ρ : Rand Ω) : HM R (HSt C R σ) := do
  let gen ← match data with
    | some a => pure a
    | none => do
      let g ← pureE (e.initGen ρ.init)
      alloc g
  let g ← readArr gen
  let ev ← pureE (checkGeneration env e.parallel f 0 g.rows)
  match g.rows, ev.stored with
  | r0 :: _, c0 :: _ => do
    let elite ← alloc { g with rows := [r0] }
    let (best, i) ← pureE (bestOf ev.stored)
    pure { gen := gen, elite := elite, bestInd := .index i, evals := ev.stored, evalsElite := [c0],
           bestCost := best, pm := pm, history := [best], notBetter := 0, log := [ev.calls] }
  | _, _ => pureE (.error .indexError)

/-- eda.py:186-209: one pass.  `self.generation += white_noise` modifies the array `self.generation`
refers to; `best_ind_local = self.generation[...]` is a view. -/
def hstep [PyCost C] (env : Env C) (e : Eda R σ Ω) (f : ℕ → R → C) (ftol : C) (ρ : Rand Ω)
    (noise : Gen R → Except PyErr (Gen R)) (t : ℕ) (s : HSt C R σ) : HM R (HSt C R σ × Bool) := do
  let s1 ← htruncation env e s
  let g ← readArr s1.gen
  let noisy ← pureE (noise g)
  writeArr s1.gen noisy
  let g ← readArr s1.gen
  let el ← readArr s1.elite
  let pm ← pureE (e.updatePm s1.pm g el (ρ.learn t))
  let new ← pureE (e.sample pm (ρ.sample t))
  let gen ← alloc new
  let g ← readArr gen
  let ev ← pureE (checkGeneration env e.parallel f s1.log.flatten.length g.rows)
  let (best, i) ← pureE (bestOf ev.stored)
  match g.rows[i]? with
  | none => pureE (.error .indexError)
  | some _ =>
    let s2 : HSt C R σ := { s1 with
      gen := gen, evals := ev.stored, pm := pm, history := s1.history ++ [best],
      log := s1.log ++ [ev.calls] }
    if PyCost.lt best (PyCost.mulTol s1.bestCost ftol) then
      pure ({ s2 with bestCost := best, bestInd := .view gen i, notBetter := 0 }, false)
    else
      pure ({ s2 with notBetter := s1.notBetter + 1 }, decide (s1.notBetter + 1 = e.deadIter))

/-- eda.py:186. -/
def hloop [PyCost C] (env : Env C) (e : Eda R σ Ω) (f : ℕ → R → C) (ftol : C) (ρ : Rand Ω)
    (noise : Gen R → Except PyErr (Gen R)) : ℕ → ℕ → HSt C R σ → HM R (HSt C R σ)
  | 0, _, s => pure s
  | n + 1, t, s => do
    let r ← hstep env e f ftol ρ noise t s
    if r.2 then pure r.1 else hloop env e f ftol ρ noise n (t + 1) r.1

/-- eda.py:148-222: the final state; `result.best_ind` is the reference `bestInd`. -/
def hminimize [PyCost C] (env : Env C) (e : Eda R σ Ω) (data : Option ℕ) (f : ℕ → R → C) (ftol : C)
    (pm : σ) (ρ : Rand Ω) : HM R (HSt C R σ) := do
  let s0 ← hstart env e data f pm ρ
  let noise ← pureE (e.mkNoise ρ.noise)
  hloop env e f ftol ρ noise (e.maxIter - 1).toNat 1 s0

end Verif
