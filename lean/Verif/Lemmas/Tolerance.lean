/- The best cost as a function of the history, over an ordered field. -/
import Verif.Lemmas.Loop
import Verif.Model.Costs
import Mathlib.Algebra.Order.Group.Abs
import Mathlib.Algebra.Order.Ring.Abs

namespace Verif

open PyCost Spec

section general
variable {C : Type} [PyCost C] [LawfulCost C]

theorem bestAfter_zero_tol {ftol : C} (ht : ∀ b : C, mulTol b ftol = b) {h : List C} {b : C}
    (hb : bestAfter ftol h = some b) : IsMinOf b h := by
  cases h with
  | nil => simp [bestAfter] at hb
  | cons a as =>
    have : pyMin (a :: as) = some b := by
      simp only [bestAfter, ht] at hb
      exact hb
    exact isMinOf_pyMin this

end general

section field
variable {K : Type} [Field K] [LinearOrder K] [IsStrictOrderedRing K]

omit [IsStrictOrderedRing K] in
theorem bestAfter_snoc {ftol : K} {h : List K} {x b : K} (hb : bestAfter ftol (h ++ [x]) = some b) :
    (h = [] ∧ b = x) ∨
    ∃ b', bestAfter ftol h = some b' ∧
      ((x < b' * (1 + ftol) ∧ b = x) ∨ (b' * (1 + ftol) ≤ x ∧ b = b')) := by
  cases hh : bestAfter ftol h with
  | none =>
    left
    cases h with
    | nil =>
      simp only [List.nil_append, bestAfter, List.foldl_nil, Option.some.injEq] at hb
      exact ⟨rfl, hb.symm⟩
    | cons a as => simp [bestAfter] at hh
  | some b' =>
    right
    rw [bestAfter_append ftol h x b' hh] at hb
    simp only [Option.some.injEq, field_lt, field_mulTol, decide_eq_true_eq] at hb
    refine ⟨b', rfl, ?_⟩
    split at hb
    · left; exact ⟨by assumption, hb.symm⟩
    · right; exact ⟨not_lt.1 (by assumption), hb.symm⟩

theorem getElem?_snoc {α : Type} {h : List α} {x y : α} {j : ℕ} (hj : (h ++ [x])[j]? = some y) :
    (j < h.length ∧ h[j]? = some y) ∨ (j = h.length ∧ y = x) := by
  rcases lt_trichotomy j h.length with hl | hl | hl
  · left
    rw [List.getElem?_append_left hl] at hj
    exact ⟨hl, hj⟩
  · right
    subst hl
    simp at hj
    exact ⟨rfl, hj.symm⟩
  · rw [List.getElem?_eq_none (by simp; omega)] at hj
    simp at hj

/-- Non-negative costs: the reported best exceeds entry `j` at most by one factor `1 + ftol` per
later generation. -/
theorem bestAfter_nonneg {ftol : K} (h0 : 0 ≤ ftol) (h : List K) :
    ∀ b, bestAfter ftol h = some b → (∀ x ∈ h, 0 ≤ x) →
      ∀ j x, h[j]? = some x → b ≤ (1 + ftol) ^ (h.length - 1 - j) * x := by
  induction h using List.reverseRecOn with
  | nil => intro b hb; simp [bestAfter] at hb
  | append_singleton h y ih =>
    intro b hb hnn j x hj
    have h1 : (1 : K) ≤ 1 + ftol := by linarith
    have hlen : (h ++ [y]).length - 1 - j = h.length - j := by simp
    rw [hlen]
    have hy : 0 ≤ y := hnn y (by simp)
    rcases bestAfter_snoc hb with ⟨hh, hbx⟩ | ⟨b', hb', hc⟩
    · subst hh
      rcases getElem?_snoc hj with ⟨hl, _⟩ | ⟨hl, hx⟩
      · simp at hl
      · subst hl; simp [hbx, hx]
    · have hb'0 : 0 ≤ b' := hnn b' (by simp [bestAfter_mem _ _ _ hb'])
      rcases getElem?_snoc hj with ⟨hl, hx⟩ | ⟨hl, hx⟩
      · have hIH := ih b' hb' (fun x hx => hnn x (by simp [hx])) j x hx
        have hx0 : 0 ≤ x := hnn x (by simp [List.mem_of_getElem? hx])
        have hp : h.length - j = (h.length - 1 - j) + 1 := by omega
        rw [hp, pow_succ]
        have hmul : b' * (1 + ftol) ≤ (1 + ftol) ^ (h.length - 1 - j) * (1 + ftol) * x := by
          have := mul_le_mul_of_nonneg_right hIH (by linarith : (0 : K) ≤ 1 + ftol)
          linarith [this]
        rcases hc with ⟨hc1, hc2⟩ | ⟨hc1, hc2⟩
        · rw [hc2]; linarith
        · rw [hc2]
          have : b' ≤ b' * (1 + ftol) := le_mul_of_one_le_right hb'0 h1
          linarith
      · subst hl
        simp only [Nat.sub_self, pow_zero, one_mul]
        rcases hc with ⟨hc1, hc2⟩ | ⟨hc1, hc2⟩
        · rw [hc2, hx]
        · rw [hc2, hx]
          have : b' ≤ b' * (1 + ftol) := le_mul_of_one_le_right hb'0 h1
          linarith

/-- Non-positive costs: `best * (1 + ftol)` is below every entry, and entries are only accepted if
they really are smaller. -/
theorem bestAfter_nonpos {ftol : K} (h0 : 0 ≤ ftol) (h : List K) :
    ∀ b, bestAfter ftol h = some b → (∀ x ∈ h, x ≤ 0) → ∀ x ∈ h, b * (1 + ftol) ≤ x := by
  induction h using List.reverseRecOn with
  | nil => intro b hb; simp [bestAfter] at hb
  | append_singleton h y ih =>
    intro b hb hnp x hx
    have h1 : (1 : K) ≤ 1 + ftol := by linarith
    have hy : y ≤ 0 := hnp y (by simp)
    have hmul : ∀ z : K, z ≤ 0 → z * (1 + ftol) ≤ z := by
      intro z hz
      nlinarith
    rcases bestAfter_snoc hb with ⟨hh, hbx⟩ | ⟨b', hb', hc⟩
    · subst hh
      simp only [List.nil_append, List.mem_singleton] at hx
      subst hx
      rw [hbx]
      exact hmul _ hy
    · have hIH := ih b' hb' (fun x hx => hnp x (by simp [hx]))
      rcases List.mem_append.1 hx with hx | hx
      · have := hIH x hx
        rcases hc with ⟨hc1, hc2⟩ | ⟨hc1, hc2⟩
        · rw [hc2]
          have := hmul y hy
          linarith
        · rw [hc2]; exact this
      · simp only [List.mem_singleton] at hx
        subst hx
        rcases hc with ⟨hc1, hc2⟩ | ⟨hc1, hc2⟩
        · rw [hc2]; exact hmul _ hy
        · rw [hc2]; exact hc1

/-- Costs of any sign bounded by `M`: the reported best exceeds entry `j` by at most `ftol * M` per
generation from `j` on. -/
theorem bestAfter_abs {ftol M : K} (h0 : 0 ≤ ftol) (h : List K) :
    ∀ b, bestAfter ftol h = some b → (∀ x ∈ h, |x| ≤ M) →
      ∀ (j : ℕ) (x : K), h[j]? = some x → b ≤ x + ftol * M * (h.length - j) := by
  induction h using List.reverseRecOn with
  | nil => intro b hb; simp [bestAfter] at hb
  | append_singleton h y ih =>
    intro b hb hM j x hj
    have hyM := hM y (by simp)
    have hM0 : 0 ≤ M := (abs_nonneg y).trans hyM
    have hfM : 0 ≤ ftol * M := mul_nonneg h0 hM0
    have hjlt : j < (h ++ [y]).length := (List.getElem?_eq_some_iff.1 hj).1
    rcases bestAfter_snoc hb with ⟨hh, hbx⟩ | ⟨b', hb', hc⟩
    · subst hh
      rcases getElem?_snoc hj with ⟨hl, _⟩ | ⟨hl, hx⟩
      · simp at hl
      · subst hl; simp only [List.nil_append, List.length_singleton, List.length_nil, Nat.cast_one,
          Nat.cast_zero, sub_zero, mul_one]; rw [hbx, hx]; linarith
    · have hb'M := abs_le.1 (hM b' (by simp [bestAfter_mem _ _ _ hb']))
      have hup : b' * (1 + ftol) ≤ b' + ftol * M := by nlinarith
      have hdown : b' - ftol * M ≤ b' * (1 + ftol) := by nlinarith
      rcases getElem?_snoc hj with ⟨hl, hx⟩ | ⟨hl, hx⟩
      · have hIH := ih b' hb' (fun x hx => hM x (by simp [hx])) j x hx
        have hl' : ((h ++ [y]).length : K) = h.length + 1 := by simp
        rw [hl']
        rcases hc with ⟨hc1, hc2⟩ | ⟨hc1, hc2⟩
        · rw [hc2]; linarith
        · rw [hc2]; linarith
      · subst hl
        have hl' : ((h ++ [y]).length : K) = h.length + 1 := by simp
        rw [hl', hx]
        rcases hc with ⟨hc1, hc2⟩ | ⟨hc1, hc2⟩
        · rw [hc2]; linarith
        · rw [hc2]; linarith

omit [IsStrictOrderedRing K] in
theorem bestAfter_replicate (ftol c : K) (n : ℕ) :
    bestAfter ftol (List.replicate (n + 1) c) = some c := by
  rw [List.replicate_succ]
  simp only [bestAfter, Option.some.injEq]
  induction n with
  | zero => simp
  | succ n ih => simp only [List.replicate_succ, List.foldl_cons, ite_self]; exact ih

omit [IsStrictOrderedRing K] in
theorem nonImproving_replicate (ftol c : K) (n i : ℕ) (h1 : 1 ≤ i) (h2 : i < n) :
    NonImproving ftol (List.replicate n c) i ↔ c * (1 + ftol) ≤ c := by
  unfold NonImproving
  have : min i n = (i - 1) + 1 := by omega
  rw [List.take_replicate, this, bestAfter_replicate]
  simp [h2]

end field

end Verif
