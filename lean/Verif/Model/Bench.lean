/-
Model of /repo/EDAspy/benchmarks/continuous.py.

Floats are real numbers, numpy's functions are the real functions.
-/
import Verif.Py
import Mathlib.Analysis.SpecialFunctions.Trigonometric.Basic
import Mathlib.Analysis.SpecialFunctions.Pow.Real

namespace Verif

open Real

/-- `x[i]` for a non-negative index. -/
def getE (x : List ℝ) (i : ℕ) : Except PyErr ℝ :=
  match x[i]? with
  | some v => .ok v
  | none => .error .indexError

/-- A loop `for i in is: acc += g(i)`. -/
noncomputable def loopAdd (is : List ℕ) (g : ℕ → Except PyErr ℝ) (acc : ℝ) : Except PyErr ℝ :=
  match is with
  | [] => .ok acc
  | i :: is =>
    match g i with
    | .error err => .error err
    | .ok v => loopAdd is g (acc + v)

/-- A loop `for i in is: acc *= g(i)`. -/
noncomputable def loopMul (is : List ℕ) (g : ℕ → Except PyErr ℝ) (acc : ℝ) : Except PyErr ℝ :=
  match is with
  | [] => .ok acc
  | i :: is =>
    match g i with
    | .error err => .error err
    | .ok v => loopMul is g (acc * v)

/-- Python's `%` for floats (sign of the divisor). -/
noncomputable def pyMod (x m : ℝ) : ℝ := x - m * ⌊x / m⌋

/-- Python's `round`: nearest integer, ties to even. -/
noncomputable def pyRound (x : ℝ) : ℤ :=
  if x - ⌊x⌋ < 1 / 2 then ⌊x⌋
  else if 1 / 2 < x - ⌊x⌋ then ⌊x⌋ + 1
  else if ⌊x⌋ % 2 = 0 then ⌊x⌋ else ⌊x⌋ + 1

/-- `range(a, b)`. -/
def rangeFrom (a b : ℕ) : List ℕ := (List.range (b - a)).map (· + a)

/-- continuous.py:9-15. -/
noncomputable def modSchF (z : ℝ) (dim : ℕ) : ℝ :=
  if |z| ≤ 500 then z * sin (|z| ^ (0.5 : ℝ))
  else if 500 < z then
    (500 - pyMod z 500) * sin (√ |500 - pyMod z 500|) - ((z - 500) ^ 2 / 10000 * dim)
  else
    (pyMod z 500 - 500) * sin (√ |pyMod |z| 500 - 500|) - ((z + 500) ^ 2 / 10000 * dim)

/-- continuous.py:18-19. -/
noncomputable def scafferF6 (x y : ℝ) : ℝ :=
  0.5 + ((sin (√ (x ^ 2 + y ^ 2))) ^ 2 - 0.5) / (1 + 0.001 * (x ^ 2 + y ^ 2)) ^ 2

/-- continuous.py:24-34: the dimensions accepted by the constructor; returns `self.d`. -/
def Bench.new (dim : ℤ) : Except PyErr ℕ :=
  if dim ∈ [1, 10, 20, 30, 50, 100] then .ok dim.toNat else .error .assertion

namespace Bench

/-- continuous.py:52-64. -/
noncomputable def bentCigar (d : ℕ) (x : List ℝ) : Except PyErr ℝ :=
  match getE x 0 with
  | .error err => .error err
  | .ok x0 =>
    match loopAdd (rangeFrom 1 d) (fun i => (getE x i).map (· ^ 2)) (x0 ^ 2) with
    | .error err => .error err
    | .ok r => .ok (r + r * 10 ^ 6)

/-- continuous.py:66-77. -/
noncomputable def discus (d : ℕ) (x : List ℝ) : Except PyErr ℝ :=
  match getE x 0 with
  | .error err => .error err
  | .ok x0 => loopAdd (rangeFrom 1 d) (fun i => (getE x i).map (· ^ 2)) (10 ^ 6 * x0 ^ 2)

/-- The summand of continuous.py:89. -/
noncomputable def rosenbrockTerm (x : List ℝ) (i : ℕ) : Except PyErr ℝ :=
  match getE x i with
  | .error err => .error err
  | .ok a =>
    match getE x (i + 1) with
    | .error err => .error err
    | .ok b => .ok (100 * (a ^ 2 - b) ^ 2 + (a - 1) ^ 2)

/-- continuous.py:79-90. -/
noncomputable def rosenbrock (d : ℕ) (x : List ℝ) : Except PyErr ℝ :=
  loopAdd (List.range (d - 1)) (rosenbrockTerm x) 0

/-- continuous.py:92-102. -/
noncomputable def ackley (d : ℕ) (x : List ℝ) : Except PyErr ℝ :=
  match loopAdd (List.range d) (fun i => (getE x i).map (· ^ 2)) 0 with
  | .error err => .error err
  | .ok sum1 =>
    match loopAdd (List.range d) (fun i => (getE x i).map (fun v => cos (v * 2 * π))) 0 with
    | .error err => .error err
    | .ok sum2 => .ok (-20 * exp (-0.2 * √ (sum1 / d)) - exp (sum2 / d) + 20 + exp 1)

/-- The inner loops of continuous.py:117-122 for one variable (`0.5` is `a`, `3` is `b`, `20` is
`k_max`). -/
noncomputable def weierstrassTerm (d : ℕ) (v : ℝ) : ℝ :=
  let aux1 := (List.range 20).foldl (fun s k => s + 0.5 ^ k * cos (2 * π * 3 ^ k * (v + 0.5))) 0
  let aux2 := (List.range 20).foldl (fun s k => s + 0.5 ^ k * cos (2 * π * 3 ^ k * 0.5)) 0
  aux1 - d * aux2

/-- continuous.py:104-126. -/
noncomputable def weierstrass (d : ℕ) (x : List ℝ) : Except PyErr ℝ :=
  loopAdd (List.range d) (fun i => (getE x i).map (weierstrassTerm d)) 0

/-- continuous.py:128-142. -/
noncomputable def griewank (d : ℕ) (x : List ℝ) : Except PyErr ℝ :=
  match loopAdd (List.range d) (fun i => (getE x i).map (fun v => v ^ 2 / 4000)) 0 with
  | .error err => .error err
  | .ok f =>
    match loopMul (rangeFrom 1 d) (fun i => (getE x (i - 1)).map (fun v => cos (v / √ i) + 1)) 0 with
    | .error err => .error err
    | .ok aux => .ok (f - aux)

/-- continuous.py:144-155. -/
noncomputable def rastrigin (x : List ℝ) : Except PyErr ℝ :=
  loopAdd (List.range x.length)
    (fun i => (getE x i).map (fun v => v ^ 2 - 10 * cos (2 * π * v) + 10)) 0

/-- continuous.py:157-161.  `(i-1)/(len(x)-1)` divides two Python integers. -/
noncomputable def elliptic (x : List ℝ) : Except PyErr ℝ :=
  loopAdd (rangeFrom 1 (x.length + 1))
    (fun i => if x.length = 1 then .error .zeroDivision
      else (getE x (i - 1)).map
        (fun v => ((10 : ℝ) ^ 6) ^ (((i - 1 : ℕ) : ℝ) / ((x.length - 1 : ℕ) : ℝ)) * v ^ 2)) 0

/-- continuous.py:163-175. -/
noncomputable def modSchwefel (x : List ℝ) : Except PyErr ℝ :=
  loopAdd (rangeFrom 1 (x.length + 1))
    (fun i => (getE x (i - 1)).map (fun v => -modSchF (v + 420.9687462275036) x.length))
    (418.9829 * x.length)

/-- The inner loop of continuous.py:187-188. -/
noncomputable def katsuuraSum (v : ℝ) : ℝ :=
  (rangeFrom 1 32).foldl (fun s j => s + |v * 2 ^ j - pyRound (v * 2 ^ j)| / 2 ^ j) 0

/-- continuous.py:177-192. -/
noncomputable def katsuura (d : ℕ) (x : List ℝ) : Except PyErr ℝ :=
  match loopMul (rangeFrom 1 (d + 1))
      (fun i => (getE x (i - 1)).map
        (fun v => (1 + i * katsuuraSum v) ^ (10 / (d : ℝ) ^ (1.2 : ℝ)))) 1 with
  | .error err => .error err
  | .ok aux => .ok (aux * (10 / (d : ℝ) ^ 2) - 10 / (d : ℝ) ^ 2)

/-- continuous.py:194-205. -/
noncomputable def happycat (d : ℕ) (x : List ℝ) : Except PyErr ℝ :=
  match loopAdd (rangeFrom 1 (d + 1)) (fun i => (getE x (i - 1)).map (· ^ 2)) 0 with
  | .error err => .error err
  | .ok a =>
    match loopAdd (rangeFrom 1 (d + 1)) (fun i => getE x (i - 1)) 0 with
    | .error err => .error err
    | .ok b => .ok (|a - d| ^ (0.25 : ℝ) + ((0.5 * a + b) / d + 0.5))

/-- continuous.py:207-218. -/
noncomputable def hgbat (d : ℕ) (x : List ℝ) : Except PyErr ℝ :=
  match loopAdd (rangeFrom 1 (d + 1)) (fun i => (getE x (i - 1)).map (· ^ 2)) 0 with
  | .error err => .error err
  | .ok a =>
    match loopAdd (rangeFrom 1 (d + 1)) (fun i => getE x (i - 1)) 0 with
    | .error err => .error err
    | .ok b => .ok (|a ^ 2 - b ^ 2| ^ (0.5 : ℝ) + (0.5 * a + b) / d + 0.5)

/-- A summand of continuous.py:228-229. -/
noncomputable def scafferTerm (x : List ℝ) (i j : ℕ) : Except PyErr ℝ :=
  match getE x i with
  | .error err => .error err
  | .ok a =>
    match getE x j with
    | .error err => .error err
    | .ok b => .ok (scafferF6 a b)

/-- continuous.py:220-230. -/
noncomputable def expandedScaffer (d : ℕ) (x : List ℝ) : Except PyErr ℝ :=
  match loopAdd (rangeFrom 1 d) (fun i => scafferTerm x (i - 1) i) 0 with
  | .error err => .error err
  | .ok r =>
    match scafferTerm x (d - 1) 0 with
    | .error err => .error err
    | .ok v => .ok (r + v)

/-- The numbers in the files of benchmarks/input_data: `shift k` are those of `shift_data_k.txt`,
`rot k d` those of `M_k_Dd.txt` (`none`: no such file). -/
structure Files where
  shift : ℕ → List ℝ
  rot : ℕ → ℕ → Option (List ℝ)

/-- continuous.py:37-41. -/
def loadShift (fs : Files) (d k : ℕ) : List ℝ := (fs.shift k).take d

/-- continuous.py:43-50, `np.reshape` included. -/
def loadRot (fs : Files) (d k : ℕ) : Except PyErr (List (List ℝ)) :=
  match fs.rot k d with
  | none => .error .fileNotFound
  | some l =>
    if l.length = d * d then .ok ((List.range d).map (fun i => (l.drop (i * d)).take d))
    else .error .valueError

/-- `a - b` for vectors, with numpy broadcasting. -/
noncomputable def npSub (a b : List ℝ) : Except PyErr (List ℝ) :=
  if a.length = b.length then .ok (List.zipWith (· - ·) a b)
  else
    match a, b with
    | [u], b => .ok (b.map (fun v => u - v))
    | a, [v] => .ok (a.map (fun u => u - v))
    | _, _ => .error .valueError

/-- `np.dot(mat, v)` for a square matrix given by its rows. -/
noncomputable def npDot (m : List (List ℝ)) (v : List ℝ) : Except PyErr (List ℝ) :=
  if m.length = v.length then .ok (m.map (fun r => (List.zipWith (· * ·) r v).sum))
  else .error .valueError

/-- The common beginning of the `cec14_k`: `c * (np.array(x) - self._load_shift(k))`, where `c = 1`
if the code does not multiply. -/
noncomputable def shifted (fs : Files) (d k : ℕ) (c : ℝ) (x : List ℝ) : Except PyErr (List ℝ) :=
  (npSub x (loadShift fs d k)).map (List.map (c * ·))

/-- ... followed by `np.dot(self._load_rot(k), ...)`. -/
noncomputable def rotated (fs : Files) (d k : ℕ) (c : ℝ) (x : List ℝ) : Except PyErr (List ℝ) :=
  match shifted fs d k c x with
  | .error err => .error err
  | .ok v =>
    match loadRot fs d k with
    | .error err => .error err
    | .ok m => npDot m v

/-- `f(...) + bias`. -/
noncomputable def evalAt (z : Except PyErr (List ℝ)) (f : List ℝ → Except PyErr ℝ) (bias : ℝ) :
    Except PyErr ℝ :=
  match z with
  | .error err => .error err
  | .ok z => (f z).map (· + bias)

variable (fs : Files) (d : ℕ) (x : List ℝ)

/-- continuous.py:232-243. -/
noncomputable def cec1 := evalAt (rotated fs d 1 1 x) elliptic 100
/-- continuous.py:245-256. -/
noncomputable def cec2 := evalAt (rotated fs d 2 1 x) (bentCigar d) 200
/-- continuous.py:258-269. -/
noncomputable def cec3 := evalAt (rotated fs d 3 1 x) (discus d) 300
/-- continuous.py:271-282. -/
noncomputable def cec4 := evalAt ((rotated fs d 4 (2.048 / 100) x).map (List.map (· + 1))) (rosenbrock d) 400
/-- continuous.py:284-295. -/
noncomputable def cec5 := evalAt (rotated fs d 5 1 x) (ackley d) 800
/-- continuous.py:297-308. -/
noncomputable def cec6 := evalAt (rotated fs d 6 (0.5 / 100) x) (ackley d) 600
/-- continuous.py:310-321. -/
noncomputable def cec7 := evalAt (rotated fs d 7 (600 / 100) x) (griewank d) 700
/-- continuous.py:323-333. -/
noncomputable def cec8 := evalAt (shifted fs d 8 (5.12 / 100) x) rastrigin 800
/-- continuous.py:335-347. -/
noncomputable def cec9 := evalAt (rotated fs d 9 (5.12 / 100) x) rastrigin 900
/-- continuous.py:349-359. -/
noncomputable def cec10 := evalAt (shifted fs d 10 10 x) modSchwefel 1000
/-- continuous.py:361-372. -/
noncomputable def cec11 := evalAt (rotated fs d 11 10 x) modSchwefel 1100
/-- continuous.py:374-385. -/
noncomputable def cec12 := evalAt (rotated fs d 12 0.05 x) (katsuura d) 1200
/-- continuous.py:387-398. -/
noncomputable def cec13 := evalAt (rotated fs d 13 0.05 x) (happycat d) 1300
/-- continuous.py:400-411. -/
noncomputable def cec14 := evalAt (rotated fs d 14 0.05 x) (hgbat d) 1400
/-- continuous.py:413-424. -/
noncomputable def cec16 := evalAt ((rotated fs d 16 1 x).map (List.map (· + 1))) (expandedScaffer d) 1600

/-- The method `cec14_k`; there is none for other `k`. -/
noncomputable def cec (k : ℕ) : Except PyErr ℝ :=
  match k with
  | 1 => cec1 fs d x | 2 => cec2 fs d x | 3 => cec3 fs d x | 4 => cec4 fs d x | 5 => cec5 fs d x
  | 6 => cec6 fs d x | 7 => cec7 fs d x | 8 => cec8 fs d x | 9 => cec9 fs d x | 10 => cec10 fs d x
  | 11 => cec11 fs d x | 12 => cec12 fs d x | 13 => cec13 fs d x | 14 => cec14 fs d x
  | 16 => cec16 fs d x
  | _ => .error .exception

end Bench

end Verif
