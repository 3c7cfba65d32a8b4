import Verif.Model.Core
/-!
# What `minimize` prints

`EDA.minimize` (eda.py:148-222) prints with Python's `print` in four places (eda.py:183-184, 211-212,
214-216).  The functions below repeat the control flow of `minimize` and of its loop and collect the
printed lines, also those of a run that ends with an exception.  A line is kept as the values that
are formatted into it; the text around them (`IT: `, `Best cost: ` and so on) is not modelled.
-/

namespace Verif

variable {R C σ Ω : Type}

/-- One printed line. -/
inductive Line (R C : Type)
  /-- eda.py:184 and eda.py:212: `IT: t  Best cost: c`. -/
  | it (t : ℕ) (best : C)
  /-- eda.py:215: `NFEVALS = n F = c`. -/
  | fevals (n : ℤ) (best : C)
  /-- eda.py:216: `X = individual`. -/
  | x (ind : BestInd R)
  deriving DecidableEq

/-- eda.py:183-184 and eda.py:211-212 `if output_runtime: print('IT: ', …)`. -/
def showIt (outputRuntime : Bool) (t : ℕ) (best : C) : List (Line R C) :=
  if outputRuntime then [.it t best] else []

/-- eda.py:186-212 the loop with its output: `n` passes left, the next one is pass `t`.  A pass that
ends with `break` (eda.py:208-209) leaves before the `print` of eda.py:211-212. -/
def loopOut [PyCost C] (env : Env C) (e : Eda R σ Ω) (f : ℕ → R → C) (ftol : C) (ρ : Rand Ω)
    (noise : Gen R → Except PyErr (Gen R)) (outputRuntime : Bool) :
    ℕ → ℕ → St R C σ → List (Line R C) × Except PyErr (St R C σ)
  | 0, _, s => ([], .ok s)
  | n + 1, t, s =>
    match step env e f ftol ρ noise t s with
    | .error err => ([], .error err)
    | .ok (s', true) => ([], .ok s')
    | .ok (s', false) =>
      let rest := loopOut env e f ftol ρ noise outputRuntime n (t + 1) s'
      (showIt outputRuntime t s'.bestCost ++ rest.1, rest.2)

/-- eda.py:214-216 `if self.disp: …`. -/
def showEnd (disp : Bool) (e : Eda R σ Ω) (s : St R C σ) : List (Line R C) :=
  if disp then [.fevals (s.history.length * e.sizeGen) s.bestCost, .x s.bestInd] else []

/-- eda.py:148-222 `minimize(cost_function, output_runtime, ftol)` of an object whose `disp` is the
argument `disp`: the lines printed, and the result. -/
def minimizeOut [PyCost C] (env : Env C) (e : Eda R σ Ω) (f : ℕ → R → C) (ftol : C) (pm : σ)
    (ρ : Rand Ω) (outputRuntime disp : Bool) :
    List (Line R C) × Except PyErr (EdaResult R C × St R C σ) :=
  match start env e f pm ρ with
  | .error err => ([], .error err)
  | .ok s0 =>
  match e.mkNoise ρ.noise with
  | .error err => ([], .error err)
  | .ok noise =>
  match loopOut env e f ftol ρ noise outputRuntime (e.maxIter - 1).toNat 1 s0 with
  | (out, .error err) => (showIt outputRuntime 0 s0.bestCost ++ out, .error err)
  | (out, .ok s) =>
    (showIt outputRuntime 0 s0.bestCost ++ out ++ showEnd disp e s,
      .ok ({ bestInd := s.bestInd, bestCost := s.bestCost,
             nFev := s.history.length * e.sizeGen, history := s.history }, s))

end Verif
