import Verif.Model.Core
/-!
# Runs whose cost function may raise

In `Verif.Model.Core` the cost function always returns a number.  Here it may raise: `f k r` is what
call number `k`, on the individual `r`, does.  The functions repeat `checkGeneration`, `start`,
`step`, `loop` and `minimize` (eda.py:118-122, 148-222, utils.py:8-44) for such a function.  Each of
them also yields the calls that were made, one batch for each generation that was (at least partly)
evaluated, also when the run ends with an exception.  No part of the package catches an exception.
-/

namespace Verif

variable {R C σ Ω : Type}

/-- `f` is called on the rows in order; the first exception ends it. -/
def callsR (f : ℕ → R → Except PyErr C) : ℕ → List R → List (ℕ × R) × Except PyErr (List C)
  | _, [] => ([], .ok [])
  | k, r :: rs =>
    match f k r with
    | .error err => ([(k, r)], .error err)
    | .ok c =>
      match callsR f (k + 1) rs with
      | (calls, .error err) => ((k, r) :: calls, .error err)
      | (calls, .ok cs) => ((k, r) :: calls, .ok (c :: cs))

/-- `np.apply_along_axis(f, 1, rows)` (see `applyAlong`). -/
def applyAlongR [PyCost C] (f : ℕ → R → Except PyErr C) (k : ℕ) (rows : List R) :
    List (ℕ × R) × Except PyErr (Evaluated R C) :=
  match callsR f k rows with
  | (calls, .error err) => (calls, .error err)
  | (calls, .ok []) => (calls, .error .valueError)
  | (calls, .ok (c0 :: cs)) =>
    (calls, .ok { calls := rows.zip (c0 :: cs), stored := c0 :: cs.map (PyCost.castLike c0) })

/-- The exception of an outcome. -/
def errOf {α : Type} : Except PyErr α → Option PyErr
  | .error err => some err
  | .ok _ => none

/-- utils.py:8-44 (see `parallelApply`).  `Pool.map` waits for all tasks and then raises the
exception of the failed task that finished first. -/
def parallelApplyR [PyCost C] (cpu : ℕ) (sched : List ℕ) (f : ℕ → R → Except PyErr C) (k : ℕ)
    (rows : List R) : List (ℕ × R) × Except PyErr (Evaluated R C) :=
  if cpu = 0 then ([], .error .valueError) else
  match poolMap sched (fun ch : ℕ × List R => applyAlongR f (k + ch.1) ch.2)
      (arraySplit rows cpu) with
  | none => ([], .error .exception)
  | some rs =>
    let calls := (rs.map Prod.fst).flatten
    match sched.findSome? (fun i => rs[i]?.bind (fun r => errOf r.2)) with
    | some err => (calls, .error err)
    | none =>
      match (rs.map Prod.snd).mapM id with
      | .error e => (calls, .error e)
      | .ok es => (calls, .ok { calls := (es.map Evaluated.calls).flatten
                                stored := (es.map Evaluated.stored).flatten })

/-- eda.py:118-122 (see `checkGeneration`). -/
def checkGenerationR [PyCost C] (env : Env C) (parallel : Bool) (f : ℕ → R → Except PyErr C) (k : ℕ)
    (rows : List R) : List (ℕ × R) × Except PyErr (Evaluated R C) :=
  if parallel then parallelApplyR env.cpu (env.sched k) f k rows else applyAlongR f k rows

/-- eda.py:162-174 (see `start`). -/
def startR [PyCost C] (env : Env C) (e : Eda R σ Ω) (f : ℕ → R → Except PyErr C) (pm : σ)
    (ρ : Rand Ω) : List (List (ℕ × R)) × Except PyErr (St R C σ) :=
  match e.initGen ρ.init with
  | .error err => ([], .error err)
  | .ok gen =>
    match checkGenerationR env e.parallel f 0 gen.rows with
    | (asked, .error err) => ([asked], .error err)
    | (asked, .ok ⟨calls, evals⟩) =>
      ([asked],
      match gen.rows, evals with
      | r0 :: _, c0 :: _ =>
        match pyMin evals with
        | none => .error .valueError
        | some best =>
          match whereFirst evals best with
          | none => .error .indexError
          | some i =>
            .ok { gen := gen, evals := evals, elite := { gen with rows := [r0] },
                  evalsElite := [c0], bestCost := best, bestInd := .index i, pm := pm,
                  history := [best], notBetter := 0, log := [calls] }
      | _, _ => .error .indexError)

/-- eda.py:186-209 (see `step`). -/
def stepR [PyCost C] (env : Env C) (e : Eda R σ Ω) (f : ℕ → R → Except PyErr C) (ftol : C)
    (ρ : Rand Ω) (noise : Gen R → Except PyErr (Gen R)) (t : ℕ) (s : St R C σ) :
    List (List (ℕ × R)) × Except PyErr (St R C σ × Bool) :=
  match truncation env e s with
  | .error err => ([], .error err)
  | .ok s1 =>
  match noise s1.gen with
  | .error err => ([], .error err)
  | .ok noisy =>
  match e.updatePm s1.pm noisy s1.elite (ρ.learn t) with
  | .error err => ([], .error err)
  | .ok pm =>
  match e.sample pm (ρ.sample t) with
  | .error err => ([], .error err)
  | .ok gen =>
  match checkGenerationR env e.parallel f s1.log.flatten.length gen.rows with
  | (asked, .error err) => ([asked], .error err)
  | (asked, .ok ⟨calls, evals⟩) =>
  ([asked],
  match pyMin evals with
  | none => .error .valueError
  | some best =>
  match whereFirst evals best with
  | none => .error .indexError
  | some i =>
  match gen.rows[i]? with
  | none => .error .indexError
  | some ind =>
    let s2 : St R C σ := { s1 with
      gen := gen, evals := evals, pm := pm, history := s1.history ++ [best],
      log := s1.log ++ [calls] }
    if PyCost.lt best (PyCost.mulTol s1.bestCost ftol) then
      .ok ({ s2 with bestCost := best, bestInd := .row ind, notBetter := 0 }, false)
    else
      .ok ({ s2 with notBetter := s1.notBetter + 1 }, decide (s1.notBetter + 1 = e.deadIter)))

/-- eda.py:186 (see `loop`). -/
def loopR [PyCost C] (env : Env C) (e : Eda R σ Ω) (f : ℕ → R → Except PyErr C) (ftol : C)
    (ρ : Rand Ω) (noise : Gen R → Except PyErr (Gen R)) :
    ℕ → ℕ → St R C σ → List (List (ℕ × R)) × Except PyErr (St R C σ)
  | 0, _, s => ([], .ok s)
  | n + 1, t, s =>
    match stepR env e f ftol ρ noise t s with
    | (asked, .error err) => (asked, .error err)
    | (asked, .ok (s', true)) => (asked, .ok s')
    | (asked, .ok (s', false)) =>
      let rest := loopR env e f ftol ρ noise n (t + 1) s'
      (asked ++ rest.1, rest.2)

/-- eda.py:148-222 `minimize` (see `minimize`): the calls made, and the outcome. -/
def minimizeR [PyCost C] (env : Env C) (e : Eda R σ Ω) (f : ℕ → R → Except PyErr C) (ftol : C)
    (pm : σ) (ρ : Rand Ω) :
    List (List (ℕ × R)) × Except PyErr (EdaResult R C × St R C σ) :=
  match startR env e f pm ρ with
  | (asked, .error err) => (asked, .error err)
  | (asked, .ok s0) =>
  match e.mkNoise ρ.noise with
  | .error err => (asked, .error err)
  | .ok noise =>
  match loopR env e f ftol ρ noise (e.maxIter - 1).toNat 1 s0 with
  | (more, .error err) => (asked ++ more, .error err)
  | (more, .ok s) =>
    (asked ++ more,
      .ok ({ bestInd := s.bestInd, bestCost := s.bestCost,
             nFev := s.history.length * e.sizeGen, history := s.history }, s))

end Verif
