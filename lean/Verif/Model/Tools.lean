/-
Model of /repo/EDAspy/optimization/tools.py (except drawing) and /repo/EDAspy/benchmarks/binary.py.
-/
import Verif.Py
import Mathlib.Data.Nat.Sqrt
import Mathlib.Data.Rat.Floor

namespace Verif

/-- An endpoint of an arc: an integer or a variable name (as returned by `print_structure`). -/
inductive Endpoint where
  | int (z : ℤ)
  | name (s : String)
  deriving DecidableEq

/-- numpy index normalisation for an axis of length `n`: negative integers count from the end,
everything else is an `IndexError`. -/
def Endpoint.resolve (n : ℕ) : Endpoint → Except PyErr ℕ
  | .int z => if 0 ≤ z ∧ z < n then .ok z.toNat
      else if z < 0 ∧ -(n : ℤ) ≤ z then .ok (z + n).toNat
      else .error .indexError
  | .name _ => .error .indexError

variable {K : Type} [Field K]

/-- `matrix[i, j] = 1`. -/
def setOne (m : List (List K)) (i j : ℕ) : List (List K) := m.modify i (fun r => r.set j 1)

/-- Body of the loop tools.py:21-22. -/
def addArc (n : ℕ) (m : List (List K)) (arc : Endpoint × Endpoint) : Except PyErr (List (List K)) :=
  match arc.1.resolve n with
  | .error err => .error err
  | .ok i =>
    match arc.2.resolve n with
    | .error err => .error err
    | .ok j => .ok (setOne m i j)

/-- tools.py:9-25.  `np.zeros` rejects negative dimensions. -/
def arcs2adjMat (arcs : List (Endpoint × Endpoint)) (n : ℤ) : Except PyErr (List (List K)) :=
  if n < 0 then .error .valueError
  else arcs.foldlM (addArc n.toNat) (List.replicate n.toNat (List.replicate n.toNat 0))

/-- tools.py:28-31. -/
def plotNoise (n : ℤ) (size : K) : Except PyErr (List K) :=
  if n < 0 then .error .valueError
  else
    let h := List.replicate n.toNat (0 : K)
    let h := h.mapIdx (fun i x => if i % 2 = 0 then size * 2 else x)
    .ok (h.map (fun x => x - size))

/-- tools.py:39-42: the grid positions `[col, -row]`, row by row. -/
def posList (nRows nCols : ℕ) : List (ℤ × ℤ) :=
  (List.range nRows).flatMap (fun (row : ℕ) => (List.range nCols).map (fun (col : ℕ) => ((col : ℤ), -(row : ℤ))))

/-- Assignment `d[k] = v` for a dictionary given as its list of items in insertion order. -/
def dictSet {L β : Type} [DecidableEq L] : List (L × β) → L → β → List (L × β)
  | [], k, v => [(k, v)]
  | (k', v') :: d, k, v => if k' = k then (k', v) :: d else (k', v') :: dictSet d k v

/-- `d.get(k)`. -/
def dictGet {L β : Type} [DecidableEq L] (d : List (L × β)) (k : L) : Option β :=
  (d.find? (fun x => x.1 = k)).map Prod.snd

/-- The dictionary comprehension of tools.py:50. -/
def assignPos {L β : Type} [DecidableEq L] (pos : List β) :
    List L → ℕ → List (L × β) → Except PyErr (List (L × β))
  | [], _, d => .ok d
  | x :: xs, i, d =>
    match pos[i]? with
    | none => .error .indexError
    | some p => assignPos pos xs (i + 1) (dictSet d x p)

/-- tools.py:34-50.  `int(np.sqrt(n))` is the integer square root and `n / n_cols` is exact (true for
all list lengths below 2^52); Python's `/` raises for `n_cols = 0`. -/
def setPositions {L : Type} [DecidableEq L] (vars : List L) : Except PyErr (List (L × (ℤ × ℤ))) :=
  let n := vars.length
  let nCols := Nat.sqrt n
  if nCols = 0 then .error .zeroDivision
  else
    let nRows := (⌈(n : ℚ) / (nCols : ℚ)⌉).toNat
    assignPos (posList nRows nCols) vars 0 []

/-- binary.py:8-14: the builtin `sum`. -/
def oneMax (x : List K) : K := x.foldl (· + ·) 0

end Verif
