/-
Iteration order of small Python sets (CPython 3.7+, `Objects/setobject.c`): a table of 8 slots,
collisions resolved by the perturbed probing sequence (no linear probing at this size), no resize
for at most 4 elements.  Used to show orders that really occur; the properties quantify over every
order.
-/
import Mathlib.Data.List.Basic

namespace Verif

variable {L : Type} [DecidableEq L]

/-- The slot in which `key` is found or inserted. -/
def findSlot (tbl : List (Option L)) (key : L) : ℕ → ℕ → ℕ → Option ℕ
  | 0, _, _ => none
  | fuel + 1, i, perturb =>
    match tbl.getD i none with
    | none => some i
    | some x =>
      if x = key then some i
      else findSlot tbl key fuel ((i * 5 + 1 + perturb / 32) % 8) (perturb / 32)

/-- `set.add`. -/
def setInsert (h : L → ℕ) (tbl : List (Option L)) (key : L) : List (Option L) :=
  match findSlot tbl key 100 (h key % 8) (h key) with
  | none => tbl
  | some i => tbl.set i (some key)

/-- `set(l)` as a table. -/
def setOf (h : L → ℕ) (l : List L) : List (Option L) := l.foldl (setInsert h) (List.replicate 8 none)

/-- `list(s)`. -/
def setList (tbl : List (Option L)) : List L := tbl.filterMap id

/-- `list(set(a) - set(b))`: the elements of the first table that are not in `b` are added to a new
set in table order. -/
def pySetDiff (h : L → ℕ) (a b : List L) : List L :=
  setList (setOf h ((setList (setOf h a)).filter (fun x => decide (x ∉ b))))

end Verif
