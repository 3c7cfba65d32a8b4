/-
Runs whose cost function changes the array it receives.

`np.apply_along_axis` passes a view of the row, so without `parallelize` the change is made in
`self.generation` itself (and, in the first generation, in the caller's `init_data`, because
eda.py:84-85 returns that array).  With `parallelize` the rows are pickled and the workers change
copies (utils.py:24-28).  In `Verif/Model/Core.lean` the cost function does not change its argument;
the functions here repeat `start`, `step`, `loop` and `minimize` for cost functions that do.
-/
import Verif.Model.Core

namespace Verif

variable {R C σ Ω : Type}

/-- eda.py:118-122 for a cost function `f`: call number `k` on the individual `r` returns `(f k r).1`
and leaves `(f k r).2` in the array it received.  Result: the evaluation, and the array `self.generation`
afterwards.  The ghost list of calls records each individual as it is in `self.generation` afterwards. -/
def checkGenerationM [PyCost C] (env : Env C) (parallel : Bool) (f : ℕ → R → C × R) (k : ℕ)
    (g : Gen R) : Except PyErr (Evaluated R C × Gen R) :=
  match checkGeneration env parallel (fun k r => (f k r).1) k g.rows with
  | .error err => .error err
  | .ok ev =>
    if parallel then .ok (ev, g)
    else
      let rows := g.rows.mapIdx (fun i r => (f (k + i) r).2)
      .ok ({ ev with calls := rows.zip (ev.calls.map Prod.snd) }, { g with rows := rows })

/-- eda.py:162-174 (see `start`). -/
def startM [PyCost C] (env : Env C) (e : Eda R σ Ω) (f : ℕ → R → C × R) (pm : σ) (ρ : Rand Ω) :
    Except PyErr (St R C σ) :=
  match e.initGen ρ.init with
  | .error err => .error err
  | .ok gen =>
    match checkGenerationM env e.parallel f 0 gen with
    | .error err => .error err
    | .ok (⟨calls, evals⟩, gen) =>
      match gen.rows, evals with
      | r0 :: _, c0 :: _ =>
        match pyMin evals with
        | none => .error .valueError
        | some best =>
          match whereFirst evals best with
          | none => .error .indexError
          | some i =>
            .ok { gen := gen, evals := evals, elite := { gen with rows := [r0] },
                  evalsElite := [c0], bestCost := best, bestInd := .index i, pm := pm,
                  history := [best], notBetter := 0, log := [calls] }
      | _, _ => .error .indexError

/-- eda.py:186-209 (see `step`). -/
def stepM [PyCost C] (env : Env C) (e : Eda R σ Ω) (f : ℕ → R → C × R) (ftol : C) (ρ : Rand Ω)
    (noise : Gen R → Except PyErr (Gen R)) (t : ℕ) (s : St R C σ) :
    Except PyErr (St R C σ × Bool) :=
  match truncation env e s with
  | .error err => .error err
  | .ok s1 =>
  match noise s1.gen with
  | .error err => .error err
  | .ok noisy =>
  match e.updatePm s1.pm noisy s1.elite (ρ.learn t) with
  | .error err => .error err
  | .ok pm =>
  match e.sample pm (ρ.sample t) with
  | .error err => .error err
  | .ok gen =>
  match checkGenerationM env e.parallel f s1.log.flatten.length gen with
  | .error err => .error err
  | .ok (⟨calls, evals⟩, gen) =>
  match pyMin evals with
  | none => .error .valueError
  | some best =>
  match whereFirst evals best with
  | none => .error .indexError
  | some i =>
  match gen.rows[i]? with
  | none => .error .indexError
  | some ind =>
    let s2 : St R C σ := { s1 with
      gen := gen, evals := evals, pm := pm, history := s1.history ++ [best],
      log := s1.log ++ [calls] }
    if PyCost.lt best (PyCost.mulTol s1.bestCost ftol) then
      .ok ({ s2 with bestCost := best, bestInd := .row ind, notBetter := 0 }, false)
    else
      .ok ({ s2 with notBetter := s1.notBetter + 1 }, decide (s1.notBetter + 1 = e.deadIter))

/-- eda.py:186 (see `loop`). -/
def loopM [PyCost C] (env : Env C) (e : Eda R σ Ω) (f : ℕ → R → C × R) (ftol : C) (ρ : Rand Ω)
    (noise : Gen R → Except PyErr (Gen R)) : ℕ → ℕ → St R C σ → Except PyErr (St R C σ)
  | 0, _, s => .ok s
  | n + 1, t, s =>
    match stepM env e f ftol ρ noise t s with
    | .error err => .error err
    | .ok (s', true) => .ok s'
    | .ok (s', false) => loopM env e f ftol ρ noise n (t + 1) s'

/-- eda.py:148-222 `minimize` (see `minimize`). -/
def minimizeM [PyCost C] (env : Env C) (e : Eda R σ Ω) (f : ℕ → R → C × R) (ftol : C) (pm : σ)
    (ρ : Rand Ω) : Except PyErr (EdaResult R C × St R C σ) :=
  match startM env e f pm ρ with
  | .error err => .error err
  | .ok s0 =>
  match e.mkNoise ρ.noise with
  | .error err => .error err
  | .ok noise =>
  match loopM env e f ftol ρ noise (e.maxIter - 1).toNat 1 s0 with
  | .error err => .error err
  | .ok s =>
    .ok ({ bestInd := s.bestInd, bestCost := s.bestCost,
           nFev := s.history.length * e.sizeGen, history := s.history }, s)

/-- The caller's array `init_data` after `minimize`: eda.py:84-85 makes it the first generation (later
generations are new arrays, see C52). -/
def initDataAfter [PyCost C] (env : Env C) (parallel : Bool) (f : ℕ → R → C × R) (data : Gen R) : Gen R :=
  match checkGenerationM env parallel f 0 data with
  | .error _ => data
  | .ok (_, g) => g

end Verif
