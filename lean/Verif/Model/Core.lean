/-
Model of the generic EDA loop: `EDAspy/optimization/eda.py` and
`EDAspy/optimization/utils.py`.
-/
import Verif.Py

namespace Verif

variable {R C σ Ω : Type}

/-- utils.py:8-30 `_parallel_apply_along_axis` for axis 1 (the only use, eda.py:119) and
utils.py:33-44 `unpacking_apply_along_axis`.  `cpu` is `multiprocessing.cpu_count()`, `sched`
the order in which the workers finish.  (`np.array_split` into 0 sections is a `ValueError`;
an unfinished schedule cannot happen in a run that returns and is mapped to `exception`.) -/
def parallelApply [PyCost C] (cpu : ℕ) (sched : List ℕ) (f : ℕ → R → C) (k : ℕ)
    (rows : List R) : Except PyErr (Evaluated R C) :=
  if cpu = 0 then .error .valueError else
  match poolMap sched (fun ch : ℕ × List R => applyAlong f (k + ch.1) ch.2)
      (arraySplit rows cpu) with
  | none => .error .exception
  | some rs =>
    match rs.mapM id with
    | .error e => .error e
    | .ok rs => .ok { calls := (rs.map Evaluated.calls).flatten
                      stored := (rs.map Evaluated.stored).flatten }

/-- What the machine decides: the (unstable) sort, the CPU count, and for an evaluation that
starts at call number `k` the order in which the workers finish. -/
structure Env (C : Type) where
  argsort : List C → List ℕ
  cpu : ℕ
  sched : ℕ → List ℕ

/-- The parts of an `EDA` object that `minimize` uses.  `σ` is the state of the probabilistic
model (plus the archive, for SPEDA and MultivariateKEDA); `Ω` are random draws. -/
structure Eda (R σ Ω : Type) where
  sizeGen : ℤ
  maxIter : ℤ
  deadIter : ℤ
  /-- eda.py:42 -/
  truncLen : ℤ
  /-- eda.py:44 -/
  eliteLen : ℤ
  /-- eda.py:65-68 -/
  parallel : Bool
  /-- eda.py:84-88 `_initialize_generation` -/
  initGen : Ω → Except PyErr (Gen R)
  /-- eda.py:176-181: build `white_noise`; the result is the effect of
  `self.generation += white_noise` (eda.py:188). -/
  mkNoise : Ω → Except PyErr (Gen R → Except PyErr (Gen R))
  /-- eda.py:124-128 `_update_pm` (overridden by SPEDA / MultivariateKEDA); arguments: old
  model state, `self.generation`, `self.elite_temp`, draws. -/
  updatePm : σ → Gen R → Gen R → Ω → Except PyErr σ
  /-- eda.py:80-82 `_new_generation`, i.e. `self.pm.sample(size=self.size_gen)`. -/
  sample : σ → Ω → Except PyErr (Gen R)

/-- The random draws of one run. -/
structure Rand (Ω : Type) where
  init : Ω
  noise : Ω
  learn : ℕ → Ω
  sample : ℕ → Ω

/-- `self.best_ind_global` holds an `np.int64` after eda.py:174 and an array after :203. -/
inductive BestInd (R : Type) where
  | index (i : ℕ)
  | row (r : R)
  deriving DecidableEq, Repr

/-- The attributes of the object (and the locals `history`, `not_better`) during `minimize`.
`log` is a ghost: for every evaluated generation the calls of the cost function, in order. -/
structure St (R C σ : Type) where
  gen : Gen R
  evals : List C
  elite : Gen R
  evalsElite : List C
  bestCost : C
  bestInd : BestInd R
  pm : σ
  history : List C
  notBetter : ℤ
  log : List (List (R × C))

/-- eda_result.py:7-42 (settings and time are not part of this record). -/
structure EdaResult (R C : Type) where
  bestInd : BestInd R
  bestCost : C
  nFev : ℤ
  history : List C

/-- eda.py:118-122 `_check_generation_parallel` / `_check_generation_no_parallel`. -/
def checkGeneration [PyCost C] (env : Env C) (parallel : Bool) (f : ℕ → R → C) (k : ℕ)
    (rows : List R) : Except PyErr (Evaluated R C) :=
  if parallel then parallelApply env.cpu (env.sched k) f k rows else applyAlong f k rows

/-- eda.py:93-108 `_truncation`. -/
def truncation [PyCost C] (env : Env C) (e : Eda R σ Ω) (s : St R C σ) :
    Except PyErr (St R C σ) :=
  match s.gen.concat s.elite with
  | .error err => .error err
  | .ok gen =>
    let evals := s.evals ++ s.evalsElite
    let ordering := env.argsort evals
    let bt := sliceTo ordering e.truncLen
    let be := sliceTo ordering e.eliteLen
    .ok { s with
      elite := gen.takeIdx be
      gen := gen.takeIdx bt
      evalsElite := takeIdx evals be
      evals := takeIdx evals bt }

/-- eda.py:162-174: first generation, first elite, first best. -/
def start [PyCost C] (env : Env C) (e : Eda R σ Ω) (f : ℕ → R → C) (pm : σ) (ρ : Rand Ω) :
    Except PyErr (St R C σ) :=
  match e.initGen ρ.init with
  | .error err => .error err
  | .ok gen =>
    match checkGeneration env e.parallel f 0 gen.rows with
    | .error err => .error err
    | .ok ⟨calls, evals⟩ =>
      match gen.rows, evals with
      | r0 :: _, c0 :: _ =>
        match pyMin evals with
        | none => .error .valueError
        | some best =>
          match whereFirst evals best with
          | none => .error .indexError
          | some i =>
            .ok { gen := gen, evals := evals, elite := { gen with rows := [r0] },
                  evalsElite := [c0], bestCost := best, bestInd := .index i, pm := pm,
                  history := [best], notBetter := 0, log := [calls] }
      | _, _ => .error .indexError

/-- eda.py:186-209: one pass of the loop body; the flag tells whether `break` was reached. -/
def step [PyCost C] (env : Env C) (e : Eda R σ Ω) (f : ℕ → R → C) (ftol : C) (ρ : Rand Ω)
    (noise : Gen R → Except PyErr (Gen R)) (t : ℕ) (s : St R C σ) :
    Except PyErr (St R C σ × Bool) :=
  match truncation env e s with
  | .error err => .error err
  | .ok s1 =>
  match noise s1.gen with
  | .error err => .error err
  | .ok noisy =>
  match e.updatePm s1.pm noisy s1.elite (ρ.learn t) with
  | .error err => .error err
  | .ok pm =>
  match e.sample pm (ρ.sample t) with
  | .error err => .error err
  | .ok gen =>
  match checkGeneration env e.parallel f s1.log.flatten.length gen.rows with
  | .error err => .error err
  | .ok ⟨calls, evals⟩ =>
  match pyMin evals with
  | none => .error .valueError
  | some best =>
  match whereFirst evals best with
  | none => .error .indexError
  | some i =>
  match gen.rows[i]? with
  | none => .error .indexError
  | some ind =>
    let s2 : St R C σ := { s1 with
      gen := gen, evals := evals, pm := pm, history := s1.history ++ [best],
      log := s1.log ++ [calls] }
    if PyCost.lt best (PyCost.mulTol s1.bestCost ftol) then
      .ok ({ s2 with bestCost := best, bestInd := .row ind, notBetter := 0 }, false)
    else
      .ok ({ s2 with notBetter := s1.notBetter + 1 }, decide (s1.notBetter + 1 = e.deadIter))

/-- eda.py:186 `for _ in range(1, self.max_iter)`: `n` passes left, the next one is pass `t`. -/
def loop [PyCost C] (env : Env C) (e : Eda R σ Ω) (f : ℕ → R → C) (ftol : C) (ρ : Rand Ω)
    (noise : Gen R → Except PyErr (Gen R)) : ℕ → ℕ → St R C σ → Except PyErr (St R C σ)
  | 0, _, s => .ok s
  | n + 1, t, s =>
    match step env e f ftol ρ noise t s with
    | .error err => .error err
    | .ok (s', true) => .ok s'
    | .ok (s', false) => loop env e f ftol ρ noise n (t + 1) s'

/-- eda.py:148-222 `minimize`: the result and the final state of the object. -/
def minimize [PyCost C] (env : Env C) (e : Eda R σ Ω) (f : ℕ → R → C) (ftol : C) (pm : σ)
    (ρ : Rand Ω) : Except PyErr (EdaResult R C × St R C σ) :=
  match start env e f pm ρ with
  | .error err => .error err
  | .ok s0 =>
  match e.mkNoise ρ.noise with
  | .error err => .error err
  | .ok noise =>
  match loop env e f ftol ρ noise (e.maxIter - 1).toNat 1 s0 with
  | .error err => .error err
  | .ok s =>
    .ok ({ bestInd := s.bestInd, bestCost := s.bestCost,
           nFev := s.history.length * e.sizeGen, history := s.history }, s)

/-- `Visited … t s`: in a run of `minimize`, `s` is the state of the object at the head of pass
`t` of the loop at eda.py:186 (pass 1 is the first).  Used to state what holds in every iteration. -/
inductive Visited [PyCost C] (env : Env C) (e : Eda R σ Ω) (f : ℕ → R → C) (ftol : C) (pm : σ)
    (ρ : Rand Ω) : ℕ → St R C σ → Prop
  | first {s0} : start env e f pm ρ = .ok s0 → Visited env e f ftol pm ρ 1 s0
  | next {t s s' noise} : Visited env e f ftol pm ρ t s → e.mkNoise ρ.noise = .ok noise →
      step env e f ftol ρ noise t s = .ok (s', false) → Visited env e f ftol pm ρ (t + 1) s'

/-- The machine is well behaved: `argsort` sorts, there is at least one CPU, and every worker of
the pool finishes. -/
structure Env.Valid [PyCost C] (env : Env C) : Prop where
  argsort : IsArgsort env.argsort
  cpu : 0 < env.cpu
  sched : ∀ k, ∀ i < env.cpu, i ∈ env.sched k

end Verif
