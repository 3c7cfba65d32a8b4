/-
C91: benchmark functions at points with another number of coordinates.
-/
import Verif.Props.Bench

namespace Verif

open Real Bench

/-! ### Loops -/

theorem loopAdd_congr {is : List ℕ} {g h : ℕ → Except PyErr ℝ} (hgh : ∀ i ∈ is, g i = h i) (acc : ℝ) :
    loopAdd is g acc = loopAdd is h acc := by
  induction is generalizing acc with
  | nil => rfl
  | cons i is ih =>
    unfold loopAdd
    rw [hgh i (by simp)]
    cases h i with
    | error err => rfl
    | ok v => exact ih (fun j hj => hgh j (by simp [hj])) _

theorem loopMul_congr {is : List ℕ} {g h : ℕ → Except PyErr ℝ} (hgh : ∀ i ∈ is, g i = h i) (acc : ℝ) :
    loopMul is g acc = loopMul is h acc := by
  induction is generalizing acc with
  | nil => rfl
  | cons i is ih =>
    unfold loopMul
    rw [hgh i (by simp)]
    cases h i with
    | error err => rfl
    | ok v => exact ih (fun j hj => hgh j (by simp [hj])) _

/-- The only exception of `r` is an `IndexError`. -/
def OnlyIndex {α : Type} (r : Except PyErr α) : Prop := ∀ err, r = .error err → err = .indexError

theorem onlyIndex_getE (x : List ℝ) (i : ℕ) : OnlyIndex (getE x i) := by
  intro err h
  unfold getE at h
  split at h <;> cases h
  rfl

theorem onlyIndex_map {α β : Type} {r : Except PyErr α} {φ : α → β} (h : OnlyIndex r) :
    OnlyIndex (r.map φ) := by
  intro err he
  cases r with
  | error e => cases he; exact h _ rfl
  | ok v => cases he

theorem loopAdd_short {is : List ℕ} {g : ℕ → Except PyErr ℝ} (hg : ∀ i ∈ is, OnlyIndex (g i)) {j : ℕ}
    (hj : j ∈ is) (he : g j = .error .indexError) (acc : ℝ) : loopAdd is g acc = .error .indexError := by
  induction is generalizing acc with
  | nil => cases hj
  | cons i is ih =>
    unfold loopAdd
    cases hi : g i with
    | error err => rw [hg i (by simp) err hi]
    | ok v =>
      rcases List.mem_cons.1 hj with rfl | hj
      · rw [he] at hi; cases hi
      · exact ih (fun k hk => hg k (by simp [hk])) hj _

theorem loopMul_short {is : List ℕ} {g : ℕ → Except PyErr ℝ} (hg : ∀ i ∈ is, OnlyIndex (g i)) {j : ℕ}
    (hj : j ∈ is) (he : g j = .error .indexError) (acc : ℝ) : loopMul is g acc = .error .indexError := by
  induction is generalizing acc with
  | nil => cases hj
  | cons i is ih =>
    unfold loopMul
    cases hi : g i with
    | error err => rw [hg i (by simp) err hi]
    | ok v =>
      rcases List.mem_cons.1 hj with rfl | hj
      · rw [he] at hi; cases hi
      · exact ih (fun k hk => hg k (by simp [hk])) hj _

theorem getE_take {x : List ℝ} {d i : ℕ} (h : i < d) : getE (x.take d) i = getE x i := by
  unfold getE
  rw [List.getElem?_take_of_lt h]

theorem onlyIndex_rosenbrock (x : List ℝ) (i : ℕ) : OnlyIndex (rosenbrockTerm x i) := by
  intro err h
  unfold rosenbrockTerm at h
  split at h
  · rename_i e he
    cases h
    exact onlyIndex_getE _ _ _ he
  · split at h
    · rename_i e he
      cases h
      exact onlyIndex_getE _ _ _ he
    · cases h

theorem onlyIndex_scaffer (x : List ℝ) (i j : ℕ) : OnlyIndex (scafferTerm x i j) := by
  intro err h
  unfold scafferTerm at h
  split at h
  · rename_i e he
    cases h
    exact onlyIndex_getE _ _ _ he
  · split at h
    · rename_i e he
      cases h
      exact onlyIndex_getE _ _ _ he
    · cases h

variable {d : ℕ} {x : List ℝ}

/-- **C91** points with too few coordinates: the functions that read `self.d` raise `IndexError`
(`rosenbrock` only if `d > 1`, because it reads no coordinate for `d = 1`). -/
theorem C91_short (h : x.length < d) :
    bentCigar d x = .error .indexError ∧ discus d x = .error .indexError ∧
    (2 ≤ d → rosenbrock d x = .error .indexError) ∧ ackley d x = .error .indexError ∧
    weierstrass d x = .error .indexError ∧ griewank d x = .error .indexError ∧
    katsuura d x = .error .indexError ∧ happycat d x = .error .indexError ∧
    hgbat d x = .error .indexError ∧ expandedScaffer d x = .error .indexError := by
  have hrange : ∀ (φ : ℝ → ℝ) (acc : ℝ),
      loopAdd (List.range d) (fun i => (getE x i).map φ) acc = .error .indexError := fun φ acc =>
    loopAdd_short (fun i _ => onlyIndex_map (onlyIndex_getE x i)) (List.mem_range.2 h)
      (by rw [getE_short le_rfl]; rfl) acc
  have hfrom : ∀ (φ : ℝ → ℝ) (acc : ℝ),
      loopAdd (rangeFrom 1 (d + 1)) (fun i => (getE x (i - 1)).map φ) acc = .error .indexError :=
    fun φ acc => loopAdd_short (j := x.length + 1) (fun i _ => onlyIndex_map (onlyIndex_getE x _))
      (mem_rangeFrom.2 ⟨by omega, by omega⟩) (by rw [getE_short (by omega)]; rfl) acc
  refine ⟨?_, ?_, ?_, ?_, ?_, ?_, ?_, ?_, ?_, ?_⟩
  · unfold bentCigar
    cases h0 : getE x 0 with
    | error err => rw [onlyIndex_getE _ _ _ h0]
    | ok x0 =>
      have hx : x.length ≠ 0 := by
        intro hx
        rw [getE_short (by omega)] at h0
        cases h0
      simp only
      rw [loopAdd_short (j := x.length) (fun i _ => onlyIndex_map (onlyIndex_getE x i))
        (mem_rangeFrom.2 ⟨by omega, h⟩) (by rw [getE_short le_rfl]; rfl)]
  · unfold discus
    cases h0 : getE x 0 with
    | error err => rw [onlyIndex_getE _ _ _ h0]
    | ok x0 =>
      have hx : x.length ≠ 0 := by
        intro hx
        rw [getE_short (by omega)] at h0
        cases h0
      exact loopAdd_short (j := x.length) (fun i _ => onlyIndex_map (onlyIndex_getE x i))
        (mem_rangeFrom.2 ⟨by omega, h⟩) (by rw [getE_short le_rfl]; rfl) _
  · intro hd
    unfold rosenbrock
    refine loopAdd_short (j := x.length - 1) (fun i _ => onlyIndex_rosenbrock x i)
      (List.mem_range.2 (by omega)) ?_ _
    unfold rosenbrockTerm
    cases h0 : getE x (x.length - 1) with
    | error err => rw [onlyIndex_getE _ _ _ h0]
    | ok a => simp only; rw [getE_short (by omega)]
  · unfold ackley
    rw [hrange]
  · exact hrange _ _
  · unfold griewank
    rw [hrange]
  · unfold katsuura
    rw [loopMul_short (j := x.length + 1) (fun i _ => onlyIndex_map (onlyIndex_getE x _))
      (mem_rangeFrom.2 ⟨by omega, by omega⟩) (by rw [getE_short (by omega)]; rfl)]
  · unfold happycat
    rw [hfrom]
  · unfold hgbat
    rw [hfrom]
  · unfold expandedScaffer
    by_cases hd : x.length = 0
    · have hs : ∀ i j, scafferTerm x i j = .error .indexError := by
        intro i j
        unfold scafferTerm
        rw [getE_short (by omega)]
      cases hl : loopAdd (rangeFrom 1 d) (fun i => scafferTerm x (i - 1) i) 0 with
      | ok r => simp only [hs]
      | error err =>
        by_cases hd1 : d = 1
        · subst hd1
          simp [rangeFrom, loopAdd] at hl
        · rw [loopAdd_short (j := 1) (fun i _ => onlyIndex_scaffer x _ _)
            (mem_rangeFrom.2 ⟨by omega, by omega⟩) (hs _ _)] at hl
          simp only
          exact hl.symm
    · rw [loopAdd_short (j := x.length) (fun i _ => onlyIndex_scaffer x _ _)
        (mem_rangeFrom.2 ⟨by omega, h⟩) ?_]
      unfold scafferTerm
      cases h0 : getE x (x.length - 1) with
      | error err => rw [onlyIndex_getE _ _ _ h0]
      | ok a => simp only; rw [getE_short le_rfl]

/-- **C91** points with too many coordinates: these functions return the value at the first `d`
coordinates. -/
theorem C91_long (hd : 1 ≤ d) :
    bentCigar d x = bentCigar d (x.take d) ∧ discus d x = discus d (x.take d) ∧
    rosenbrock d x = rosenbrock d (x.take d) ∧ ackley d x = ackley d (x.take d) ∧
    weierstrass d x = weierstrass d (x.take d) ∧ griewank d x = griewank d (x.take d) ∧
    katsuura d x = katsuura d (x.take d) ∧ happycat d x = happycat d (x.take d) ∧
    hgbat d x = hgbat d (x.take d) ∧ expandedScaffer d x = expandedScaffer d (x.take d) := by
  have hrange : ∀ (φ : ℝ → ℝ) (acc : ℝ), loopAdd (List.range d) (fun i => (getE x i).map φ) acc =
      loopAdd (List.range d) (fun i => (getE (x.take d) i).map φ) acc := fun φ acc =>
    loopAdd_congr (fun i hi => by rw [getE_take (List.mem_range.1 hi)]) acc
  have htail : ∀ (φ : ℝ → ℝ) (acc : ℝ), loopAdd (rangeFrom 1 d) (fun i => (getE x i).map φ) acc =
      loopAdd (rangeFrom 1 d) (fun i => (getE (x.take d) i).map φ) acc := fun φ acc =>
    loopAdd_congr (fun i hi => by rw [getE_take (mem_rangeFrom.1 hi).2]) acc
  have hfrom : ∀ (φ : ℝ → ℝ) (acc : ℝ),
      loopAdd (rangeFrom 1 (d + 1)) (fun i => (getE x (i - 1)).map φ) acc =
      loopAdd (rangeFrom 1 (d + 1)) (fun i => (getE (x.take d) (i - 1)).map φ) acc := fun φ acc =>
    loopAdd_congr (fun i hi => by
      have := mem_rangeFrom.1 hi
      rw [getE_take (by omega)]) acc
  have hfrom1 : ∀ (acc : ℝ), loopAdd (rangeFrom 1 (d + 1)) (fun i => getE x (i - 1)) acc =
      loopAdd (rangeFrom 1 (d + 1)) (fun i => getE (x.take d) (i - 1)) acc := fun acc =>
    loopAdd_congr (fun i hi => by
      have := mem_rangeFrom.1 hi
      rw [getE_take (by omega)]) acc
  have h0 : getE x 0 = getE (x.take d) 0 := (getE_take (by omega)).symm
  refine ⟨?_, ?_, ?_, ?_, ?_, ?_, ?_, ?_, ?_, ?_⟩
  · unfold bentCigar
    rw [h0]
    simp only [htail]
  · unfold discus
    rw [h0]
    simp only [htail]
  · unfold rosenbrock
    refine loopAdd_congr (fun i hi => ?_) _
    have := List.mem_range.1 hi
    unfold rosenbrockTerm
    rw [getE_take (by omega), getE_take (by omega)]
  · unfold ackley
    simp only [hrange]
  · exact hrange _ _
  · unfold griewank
    rw [hrange, loopMul_congr (fun i hi => ?_)]
    have := mem_rangeFrom.1 hi
    rw [getE_take (x := x) (d := d) (i := i - 1) (by omega)]
  · unfold katsuura
    rw [loopMul_congr (fun i hi => ?_)]
    have := mem_rangeFrom.1 hi
    rw [getE_take (x := x) (d := d) (i := i - 1) (by omega)]
  · unfold happycat
    simp only [hfrom, hfrom1]
  · unfold hgbat
    simp only [hfrom, hfrom1]
  · have hs : ∀ i j, i < d → j < d → scafferTerm x i j = scafferTerm (x.take d) i j := by
      intro i j hi hj
      unfold scafferTerm
      rw [getE_take hi, getE_take hj]
    unfold expandedScaffer
    rw [loopAdd_congr (fun i hi => ?_), hs _ _ (by omega) (by omega)]
    have := mem_rangeFrom.1 hi
    exact hs _ _ (by omega) (by omega)

/-- **C91** the other functions take the dimension from the point: they never raise (the elliptic
function for at least two coordinates or none). -/
theorem C91_any_length (x : List ℝ) : (∃ v, rastrigin x = .ok v) ∧ (∃ v, modSchwefel x = .ok v) ∧
    (x.length ≠ 1 → ∃ v, elliptic x = .ok v) := by
  obtain ⟨y, hy⟩ := list_ofFn x
  refine ⟨?_, ?_, ?_⟩
  · rw [hy]; exact ⟨_, rastrigin_val y⟩
  · rw [hy]; exact ⟨_, modSchwefel_val y⟩
  · intro h1
    rcases Nat.eq_zero_or_pos x.length with h0 | h0
    · rw [List.length_eq_zero_iff.1 h0]
      exact ⟨0, rfl⟩
    · rw [hy]
      exact ⟨_, elliptic_val y (by omega)⟩

/-- C91: with `dim = 10`, a point with two coordinates is refused, of a point with eleven the last one
is ignored. -/
example : ackley 10 [1, 2] = .error .indexError ∧
    discus 10 [1, 2, 3, 4, 5, 6, 7, 8, 9, 10, 11] = discus 10 [1, 2, 3, 4, 5, 6, 7, 8, 9, 10] :=
  ⟨(C91_short (by decide)).2.2.2.1, (C91_long (by decide)).2.1⟩

end Verif
