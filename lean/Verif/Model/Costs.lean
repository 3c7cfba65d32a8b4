/-
Concrete types of costs and a concrete `argsort`.

* every linearly ordered field, with exact arithmetic;
* `Flt K`: a field extended by `nan`, `-inf`, `inf`, with IEEE rules for the special values;
* `Num K`: Python `int` or `float` results, the case where `apply_along_axis` casts.
-/
import Verif.Lemmas.Py
import Mathlib.Algebra.Order.Floor.Ring
import Mathlib.Data.Rat.Floor

namespace Verif

/-- Costs in a linearly ordered field: `<`, `==`, `b * (1 + ftol)` are the field's. -/
instance fieldCost {K : Type} [Field K] [LinearOrder K] : PyCost K where
  lt a b := decide (a < b)
  eq a b := decide (a = b)
  mulTol b ftol := b * (1 + ftol)
  castLike _ c := c

section field
variable {K : Type} [Field K] [LinearOrder K]

@[simp] theorem field_lt (a b : K) : PyCost.lt a b = decide (a < b) := rfl
@[simp] theorem field_eq (a b : K) : PyCost.eq a b = decide (a = b) := rfl
@[simp] theorem field_mulTol (b ftol : K) : PyCost.mulTol b ftol = b * (1 + ftol) := rfl
@[simp] theorem field_isNum (a : K) : IsNum a := by simp [IsNum]

instance : LawfulCost K where
  lt_num := by intro a b _; simp
  eq_iff := by
    intro a b
    simp only [field_eq, field_lt, field_isNum, true_and, decide_eq_true_eq, decide_eq_false_iff_not,
      not_lt]
    exact ⟨fun h => ⟨h.ge, h.le⟩, fun h => le_antisymm h.2 h.1⟩
  asymm := by intro a b; simp only [field_lt, decide_eq_true_eq, decide_eq_false_iff_not]; exact lt_asymm
  cotrans := by
    intro a b c _
    simp only [field_lt, decide_eq_true_eq]
    intro h
    by_contra hc
    push Not at hc
    exact absurd h (not_lt.2 (hc.2.trans hc.1))

instance : UniformCost K where
  cast_eq _ _ := rfl

end field

/-- Floating point values with exact finite arithmetic. -/
inductive Flt (K : Type) where
  | nan | ninf | fin (q : K) | pinf
  deriving DecidableEq, Repr

namespace Flt
variable {K : Type} [Field K] [LinearOrder K]

/-- IEEE `<`. -/
def lt : Flt K → Flt K → Bool
  | .nan, _ => false
  | _, .nan => false
  | .ninf, .ninf => false
  | .ninf, _ => true
  | .fin _, .ninf => false
  | .fin a, .fin b => decide (a < b)
  | .fin _, .pinf => true
  | .pinf, _ => false

/-- IEEE `==`. -/
def eq : Flt K → Flt K → Bool
  | .nan, _ => false
  | .ninf, .ninf => true
  | .fin a, .fin b => decide (a = b)
  | .pinf, .pinf => true
  | _, _ => false

/-- IEEE `+`. -/
def add : Flt K → Flt K → Flt K
  | .nan, _ => .nan
  | _, .nan => .nan
  | .ninf, .pinf => .nan
  | .pinf, .ninf => .nan
  | .ninf, _ => .ninf
  | _, .ninf => .ninf
  | .pinf, _ => .pinf
  | _, .pinf => .pinf
  | .fin a, .fin b => .fin (a + b)

/-- Infinity of the sign of `a` (`nan` for zero). -/
def infSign (a : K) : Flt K := if a = 0 then .nan else if a < 0 then .ninf else .pinf

/-- IEEE `*`. -/
def mul : Flt K → Flt K → Flt K
  | .nan, _ => .nan
  | _, .nan => .nan
  | .fin a, .fin b => .fin (a * b)
  | .pinf, .pinf => .pinf
  | .ninf, .ninf => .pinf
  | .pinf, .ninf => .ninf
  | .ninf, .pinf => .ninf
  | .pinf, .fin a => infSign a
  | .fin a, .pinf => infSign a
  | .ninf, .fin a => infSign (-a)
  | .fin a, .ninf => infSign (-a)

instance : PyCost (Flt K) where
  lt := Flt.lt
  eq := Flt.eq
  mulTol b ftol := mul b (add (.fin 1) ftol)
  castLike _ c := c

theorem isNum_iff (a : Flt K) : IsNum a ↔ a ≠ .nan := by
  cases a <;> simp [IsNum, PyCost.eq, Flt.eq]

instance : LawfulCost (Flt K) where
  lt_num := by
    intro a b
    rw [isNum_iff, isNum_iff]
    cases a <;> cases b <;> simp [PyCost.lt, Flt.lt]
  eq_iff := by
    intro a b
    rw [isNum_iff, isNum_iff]
    cases a <;> cases b <;> simp [PyCost.lt, Flt.lt, PyCost.eq, Flt.eq]
    exact ⟨fun h => ⟨h.ge, h.le⟩, fun h => le_antisymm h.2 h.1⟩
  asymm := by
    intro a b
    cases a <;> cases b <;> simp [PyCost.lt, Flt.lt]
    exact le_of_lt
  cotrans := by
    intro a b c
    rw [isNum_iff]
    cases a <;> cases b <;> cases c <;> simp [PyCost.lt, Flt.lt]
    rename_i a b c
    intro h
    by_contra hc
    push Not at hc
    exact absurd h (not_lt.2 (hc.2.trans hc.1))

instance : UniformCost (Flt K) where
  cast_eq _ _ := rfl

end Flt

/-- A Python number returned by a cost function: an `int` or a `float`. -/
inductive Num (K : Type) where
  | int (z : ℤ) | flt (q : K)
  deriving DecidableEq, Repr

namespace Num
variable {K : Type} [Field K] [LinearOrder K]

/-- The mathematical value. -/
def val : Num K → K
  | .int z => z
  | .flt q => q

/-- C cast from float to integer: truncation towards zero. -/
def truncZ [FloorRing K] (q : K) : ℤ := if 0 ≤ q then ⌊q⌋ else ⌈q⌉

instance [FloorRing K] : PyCost (Num K) where
  lt a b := decide (a.val < b.val)
  eq a b := decide (a.val = b.val)
  mulTol b ftol := .flt (b.val * (1 + ftol.val))
  castLike c0 c := match c0, c with
    | .int _, .int z => .int z
    | .int _, .flt q => .int (truncZ q)
    | .flt _, c => .flt c.val

instance [FloorRing K] : LawfulCost (Num K) where
  lt_num := by intro a b _; simp [IsNum, PyCost.eq]
  eq_iff := by
    intro a b
    simp only [IsNum, PyCost.eq, PyCost.lt, decide_eq_true_eq, decide_eq_false_iff_not, true_and,
      not_lt]
    exact ⟨fun h => ⟨h.ge, h.le⟩, fun h => le_antisymm h.2 h.1⟩
  asymm := by
    intro a b
    simp only [PyCost.lt, decide_eq_true_eq, decide_eq_false_iff_not]; exact lt_asymm
  cotrans := by
    intro a b c _
    simp only [PyCost.lt, decide_eq_true_eq]
    intro h
    by_contra hc
    push Not at hc
    exact absurd h (not_lt.2 (hc.2.trans hc.1))

end Num

section sort
variable {C : Type} [PyCost C]

instance (a b : C) : Decidable (LeNanLast a b) := by unfold LeNanLast IsNum; infer_instance

/-- Order on positions used by the stable argsort. -/
def posLe (l : List C) (i j : ℕ) : Prop :=
  match l[i]?, l[j]? with
  | some a, some b => LeNanLast a b
  | _, none => True
  | none, some _ => False

instance (l : List C) : DecidableRel (posLe l) := by
  intro i j; unfold posLe; split <;> infer_instance

/-- A concrete argsort: stable insertion sort of the positions. -/
def stableArgsort (l : List C) : List ℕ := (List.range l.length).insertionSort (posLe l)

theorem leNanLast_total [LawfulCost C] (a b : C) : LeNanLast a b ∨ LeNanLast b a := by
  unfold LeNanLast
  by_cases ha : IsNum a <;> by_cases hb : IsNum b
  · by_cases h : PyCost.lt b a = true
    · right; exact ⟨LawfulCost.asymm _ _ h, fun _ => hb⟩
    · left; exact ⟨by simpa using h, fun _ => ha⟩
  · left
    refine ⟨?_, fun h => absurd h hb⟩
    by_contra h
    exact hb (LawfulCost.lt_num _ _ (Bool.eq_true_of_not_eq_false h)).1
  · right
    refine ⟨?_, fun h => absurd h ha⟩
    by_contra h
    exact ha (LawfulCost.lt_num _ _ (Bool.eq_true_of_not_eq_false h)).1
  · left
    refine ⟨?_, fun h => absurd h hb⟩
    by_contra h
    exact hb (LawfulCost.lt_num _ _ (Bool.eq_true_of_not_eq_false h)).1

theorem leNanLast_trans [LawfulCost C] {a b c : C} (h1 : LeNanLast a b) (h2 : LeNanLast b c) :
    LeNanLast a c := by
  refine ⟨?_, fun hc => h1.2 (h2.2 hc)⟩
  by_contra h
  have h := Bool.eq_true_of_not_eq_false h
  have hc := (LawfulCost.lt_num _ _ h).1
  rcases LawfulCost.cotrans _ b _ (h2.2 hc) h with h' | h'
  · rw [h2.1] at h'; simp at h'
  · rw [h1.1] at h'; simp at h'

theorem leNanLast_refl [LawfulCost C] (a : C) : LeNanLast a a := ⟨lt_irrefl' a, id⟩

theorem stableArgsort_isArgsort [LawfulCost C] : IsArgsort (stableArgsort (C := C)) where
  perm l := List.perm_insertionSort _ _
  sorted l := by
    have : Std.Total (posLe l) := ⟨by
      intro i j
      unfold posLe
      cases l[i]? <;> cases l[j]? <;> simp [leNanLast_total]⟩
    have : IsTrans ℕ (posLe l) := ⟨by
      intro i j k
      unfold posLe
      cases l[i]? <;> cases l[j]? <;> cases l[k]? <;> simp
      exact leNanLast_trans⟩
    refine (List.pairwise_insertionSort (posLe l) (List.range l.length)).imp ?_
    intro i j h a b ha hb
    unfold posLe at h
    rw [ha, hb] at h
    exact h


end sort

end Verif
