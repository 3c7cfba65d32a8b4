/-
Python / numpy primitives used by the modelled code.

Exceptions are values (`PyErr`), arrays of individuals are lists of rows, and every
numpy routine is a small total function whose error branches are explicit.
-/
import Mathlib.Data.List.Basic
import Mathlib.Data.List.Sort
import Mathlib.Algebra.Order.Field.Basic
import Mathlib.Tactic.Linarith
import Mathlib.Tactic.Ring

namespace Verif

/-- The Python exceptions that the modelled code can raise.  `notModelled` marks inputs for
which numpy silently produces NaN with a warning (mean of an empty column, ...). -/
inductive PyErr where
  | valueError | typeError | indexError | keyError (k : String) | zeroDivision
  | assertion | ufuncType | exception | fileNotFound | linAlg | notModelled
  deriving DecidableEq, Repr

/-- Scalars returned by a cost function, with Python's `<`, `==` and `b * (1 + ftol)`.
`castLike c0 c` is the value stored for `c` in an array whose dtype is that of `c0`
(numpy `apply_along_axis` allocates its output with the dtype of the first result). -/
class PyCost (C : Type) where
  lt : C → C → Bool
  eq : C → C → Bool
  mulTol : C → C → C
  castLike : C → C → C

/-- A cost is a number (not NaN) when it equals itself. -/
def IsNum {C : Type} [PyCost C] (c : C) : Prop := PyCost.eq c c = true

/-- Laws satisfied by Python number comparison: a strict weak order on the non-NaN values
(`-0.0` and `0.0` are different values that compare equal), NaN is incomparable. -/
class LawfulCost (C : Type) [PyCost C] : Prop where
  lt_num : ∀ a b : C, PyCost.lt a b = true → IsNum a ∧ IsNum b
  eq_iff : ∀ a b : C, PyCost.eq a b = true ↔
    IsNum a ∧ IsNum b ∧ PyCost.lt a b = false ∧ PyCost.lt b a = false
  asymm : ∀ a b : C, PyCost.lt a b = true → PyCost.lt b a = false
  cotrans : ∀ a b c : C, IsNum b → PyCost.lt a c = true →
    PyCost.lt a b = true ∨ PyCost.lt b c = true

/-- All costs have one numpy dtype, so that storing them in an array does not change them. -/
class UniformCost (C : Type) [PyCost C] : Prop where
  cast_eq : ∀ c0 c : C, PyCost.castLike c0 c = c

/-- numpy dtype kinds that occur for generations: integers, floats, strings/objects. -/
inductive DType where
  | int | float | object
  deriving DecidableEq, Repr

/-- dtype promotion of `np.concatenate`. -/
def DType.promote : DType → DType → DType
  | .object, _ => .object
  | _, .object => .object
  | .float, _ => .float
  | _, .float => .float
  | .int, .int => .int

/-- A two-dimensional numpy array of individuals: dtype, number of columns, rows. -/
structure Gen (R : Type) where
  dt : DType
  cols : ℕ
  rows : List R

/-- `np.concatenate([a, b])` along axis 0. -/
def Gen.concat {R : Type} (a b : Gen R) : Except PyErr (Gen R) :=
  if a.cols = b.cols then
    .ok { dt := a.dt.promote b.dt, cols := a.cols, rows := a.rows ++ b.rows }
  else .error .valueError

/-- Fancy indexing `l[idx]` for valid indices. -/
def takeIdx {α : Type} (l : List α) (idx : List ℕ) : List α := idx.filterMap (fun i => l[i]?)

/-- `g[idx, :]`. -/
def Gen.takeIdx {R : Type} (g : Gen R) (idx : List ℕ) : Gen R :=
  { g with rows := Verif.takeIdx g.rows idx }

/-- Python slice `l[:k]` (a negative `k` counts from the end). -/
def sliceTo {α : Type} (l : List α) (k : ℤ) : List α :=
  if 0 ≤ k then l.take k.toNat else l.take (l.length - (-k).toNat)

/-- Python slice `l[k:]` (a negative `k` counts from the end). -/
def sliceFrom {α : Type} (l : List α) (k : ℤ) : List α :=
  if 0 ≤ k then l.drop k.toNat else l.drop (l.length - (-k).toNat)

/-- Python's builtin `min` on a sequence: keeps the first element unless a later one is `<`.
`none` stands for the `ValueError` on an empty sequence. -/
def pyMin {C : Type} [PyCost C] : List C → Option C
  | [] => none
  | c :: cs => some (cs.foldl (fun b x => if PyCost.lt x b then x else b) c)

/-- `np.where(ev == best)[0][0]`; `none` stands for the `IndexError` when nothing matches. -/
def whereFirst {C : Type} [PyCost C] (ev : List C) (best : C) : Option ℕ :=
  ev.findIdx? (fun x => PyCost.eq x best)

/-- "`a` may stand before `b`" for numpy's sort: `b` is not smaller and NaN comes last. -/
def LeNanLast {C : Type} [PyCost C] (a b : C) : Prop :=
  PyCost.lt b a = false ∧ (IsNum b → IsNum a)

/-- Contract of `ndarray.argsort()`: some permutation of the positions that sorts the values,
NaN last.  The default sort is not stable, so nothing is assumed about ties. -/
structure IsArgsort {C : Type} [PyCost C] (argsort : List C → List ℕ) : Prop where
  perm : ∀ l, (argsort l).Perm (List.range l.length)
  sorted : ∀ l, (argsort l).Pairwise
    (fun i j => ∀ a b, l[i]? = some a → l[j]? = some b → LeNanLast a b)

/-- Calls of the cost function on the rows, in order, with running call numbers from `k`. -/
def callRows {R C : Type} (f : ℕ → R → C) (k : ℕ) (rows : List R) : List C :=
  rows.mapIdx (fun i r => f (k + i) r)

/-- What one evaluation of an array of individuals did: the calls of the cost function (row and
returned value, in row order) and the values stored in the resulting array. -/
structure Evaluated (R C : Type) where
  calls : List (R × C)
  stored : List C

/-- `np.apply_along_axis(f, 1, rows)`: `ValueError` for zero rows; the output array has the
dtype of the first result and every result is cast to it. -/
def applyAlong {R C : Type} [PyCost C] (f : ℕ → R → C) (k : ℕ) (rows : List R) :
    Except PyErr (Evaluated R C) :=
  match callRows f k rows with
  | [] => .error .valueError
  | c0 :: cs => .ok { calls := rows.zip (c0 :: cs), stored := c0 :: cs.map (PyCost.castLike c0) }

/-- Chunk sizes of `np.array_split(arr, k)`: `n % k` chunks of size `n/k + 1`, then `n/k`. -/
def splitSizes (n k : ℕ) : List ℕ :=
  List.replicate (n % k) (n / k + 1) ++ List.replicate (k - n % k) (n / k)

/-- Cut a list in consecutive chunks of the given sizes, each with its start offset. -/
def cut {α : Type} : ℕ → List ℕ → List α → List (ℕ × List α)
  | _, [], _ => []
  | o, n :: ns, l => (o, l.take n) :: cut (o + n) ns (l.drop n)

/-- `np.array_split(arr, k)` (with the offset of each chunk). -/
def arraySplit {α : Type} (l : List α) (k : ℕ) : List (ℕ × List α) :=
  cut 0 (splitSizes l.length k) l

/-- Task `i` of `Pool.map(g, xs)` finishes and writes its result in slot `i`. -/
def poolWrite {α β : Type} (g : α → β) (xs : List α) (s : List (Option β)) (i : ℕ) :
    List (Option β) :=
  match xs[i]? with
  | some x => s.set i (some (g x))
  | none => s

/-- `multiprocessing.Pool.map(g, xs)`; `sched` is the order in which the tasks finish.
`none` = the call never returns (a task never finished). -/
def poolMap {α β : Type} (sched : List ℕ) (g : α → β) (xs : List α) : Option (List β) :=
  (sched.foldl (poolWrite g xs) (List.replicate xs.length none)).mapM id

end Verif
