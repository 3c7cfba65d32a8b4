/-
Repeated trials whose success depends on the past: with independent draws, a trial that succeeds with
probability at least `δ` in whatever state it is made fails `n` times in a row with probability at most
`(1 - δ) ^ n`.
-/
import Mathlib.Probability.ProductMeasure

namespace Verif

open MeasureTheory

variable {X S O : Type} [MeasurableSpace X]

/-- The function is determined by a measurable function with countably many values. -/
def Discretely (out : X → O) : Prop :=
  ∃ (β : Type) (_ : Countable β) (_ : MeasurableSpace β) (_ : MeasurableSingletonClass β) (B : X → β),
    Measurable B ∧ ∀ x y, B x = B y → out x = out y

theorem Discretely.comp {O' : Type} {out : X → O} (h : Discretely out) (F : O → O') :
    Discretely (fun x => F (out x)) := by
  obtain ⟨β, i1, i2, i3, B, hB, h⟩ := h
  exact ⟨β, i1, i2, i3, B, hB, fun x y hxy => congrArg F (h x y hxy)⟩

theorem Discretely.const (o : O) : Discretely (fun _ : X => o) :=
  ⟨Unit, inferInstance, ⊤, ⟨fun _ => trivial⟩, fun _ => (), measurable_const, fun _ _ _ => rfl⟩

theorem Discretely.measurable {out : X → O} (h : Discretely out) (A : Set O) : MeasurableSet (out ⁻¹' A) := by
  obtain ⟨β, i1, i2, i3, B, hB, h⟩ := h
  have : out ⁻¹' A = B ⁻¹' (B '' (out ⁻¹' A)) := by
    ext x
    constructor
    · exact fun hx => ⟨x, hx, rfl⟩
    · rintro ⟨y, hy, hxy⟩
      change out x ∈ A
      rw [h x y hxy.symm]; exact hy
  rw [this]
  exact hB (Set.to_countable _).measurableSet

theorem Discretely.countable {out : X → O} (h : Discretely out) : (Set.range out).Countable := by
  obtain ⟨β, i1, i2, i3, B, hB, h⟩ := h
  refine (Set.countable_range (fun b : Set.range B => out b.2.choose)).mono ?_
  rintro _ ⟨x, rfl⟩
  exact ⟨⟨B x, x, rfl⟩, h _ _ (Exists.choose_spec (⟨x, rfl⟩ : B x ∈ Set.range B))⟩

/-- The draws with which the trials number `t, …, t + n - 1`, begun in state `s`, all fail; `Inv` is what is
known of the states. -/
def AllFail (out : ℕ → S → X → O) (nxt : O → S) (good : ℕ → S → Set O) (Inv : S → Prop) :
    ℕ → ℕ → S → Set (ℕ → X)
  | 0, _, _ => Set.univ
  | n + 1, t, s => {ω | Inv s ∧ out t s (ω t) ∉ good t s ∧
      ω ∈ AllFail out nxt good Inv n (t + 1) (nxt (out t s (ω t)))}

/-- `n` failures in a row have probability at most `(1 - δ) ^ n`.  No measurability is assumed of what the
states depend on, except that every trial has countably many outcomes. -/
theorem allFail_le (D : Measure X) [IsProbabilityMeasure D] {out : ℕ → S → X → O} {nxt : O → S}
    {good : ℕ → S → Set O} {Inv : S → Prop} {δ : ENNReal} (hd : ∀ t s, Inv s → Discretely (out t s))
    (hδ : ∀ t s, Inv s → δ ≤ D (out t s ⁻¹' good t s)) (n t : ℕ) (s : S) :
    Measure.infinitePi (fun _ : ℕ => D) (AllFail out nxt good Inv n t s) ≤ (1 - δ) ^ n := by
  have key : ∀ (n t : ℕ) (s : S) (B : ℕ → Set X), (∀ i, MeasurableSet (B i)) →
      Measure.infinitePi (fun _ : ℕ => D)
        (Set.pi (Finset.range t : Set ℕ) B ∩ AllFail out nxt good Inv n t s) ≤
        (∏ i ∈ Finset.range t, D (B i)) * (1 - δ) ^ n := by
    intro n
    induction n with
    | zero =>
      intro t s B hB
      rw [AllFail, Set.inter_univ, Measure.infinitePi_pi _ (fun i _ => hB i), pow_zero, mul_one]
    | succ n ih =>
      intro t s B hB
      by_cases hi : Inv s
      · have hdis := hd t s hi
        set A : Set O := Set.range (out t s) \ good t s with hA
        have hAc : A.Countable := hdis.countable.mono Set.sdiff_subset
        have hsub : Set.pi (Finset.range t : Set ℕ) B ∩ AllFail out nxt good Inv (n + 1) t s ⊆
            ⋃ o ∈ A, Set.pi (Finset.range (t + 1) : Set ℕ)
              (Function.update B t (out t s ⁻¹' {o})) ∩ AllFail out nxt good Inv n (t + 1) (nxt o) := by
          rintro ω ⟨hω, _, hbad, hrest⟩
          refine Set.mem_biUnion (x := out t s (ω t)) ⟨⟨_, rfl⟩, hbad⟩ ⟨?_, hrest⟩
          intro i hi
          simp only [Finset.coe_range, Set.mem_Iio] at hi
          rcases Nat.lt_succ_iff_lt_or_eq.1 hi with h | rfl
          · rw [Function.update_of_ne (by omega)]
            exact hω i (by simpa using h)
          · rw [Function.update_self]; rfl
        have hprod : ∀ o, ∏ i ∈ Finset.range (t + 1), D (Function.update B t (out t s ⁻¹' {o}) i) =
            (∏ i ∈ Finset.range t, D (B i)) * D (out t s ⁻¹' {o}) := by
          intro o
          rw [Finset.prod_range_succ, Function.update_self]
          congr 1
          refine Finset.prod_congr rfl fun i hi => ?_
          rw [Function.update_of_ne (by have := Finset.mem_range.1 hi; omega)]
        have hsum : ∑' o : A, D (out t s ⁻¹' {o.1}) ≤ 1 - δ := by
          have := Set.Countable.to_subtype hAc
          rw [← measure_iUnion (f := fun o : A => out t s ⁻¹' {o.1})]
          · have : (⋃ o : A, out t s ⁻¹' {o.1}) ⊆ (out t s ⁻¹' good t s)ᶜ := by
              intro x hx
              obtain ⟨o, ho⟩ := Set.mem_iUnion.1 hx
              intro hg
              have ho : out t s x = o.1 := ho
              exact o.2.2 (ho ▸ hg)
            refine (measure_mono this).trans ?_
            rw [prob_compl_eq_one_sub (hdis.measurable _)]
            exact tsub_le_tsub_left (hδ t s hi) 1
          · intro o o' hne
            refine Set.disjoint_left.2 fun x hx hx' => hne (Subtype.ext ?_)
            exact (show out t s x = o.1 from hx).symm.trans hx'
          · exact fun o => hdis.measurable _
        refine (measure_mono hsub).trans ((measure_biUnion_le _ hAc _).trans ?_)
        calc ∑' o : A, Measure.infinitePi (fun _ : ℕ => D) (Set.pi (Finset.range (t + 1) : Set ℕ)
              (Function.update B t (out t s ⁻¹' {o.1})) ∩ AllFail out nxt good Inv n (t + 1) (nxt o.1))
            ≤ ∑' o : A, ((∏ i ∈ Finset.range t, D (B i)) * (1 - δ) ^ n) * D (out t s ⁻¹' {o.1}) := by
              refine ENNReal.tsum_le_tsum fun o => (ih (t + 1) _ _ ?_).trans (le_of_eq ?_)
              · intro i
                rcases eq_or_ne i t with rfl | h
                · rw [Function.update_self]; exact hdis.measurable _
                · rw [Function.update_of_ne h]; exact hB i
              · rw [hprod]; ring
          _ ≤ ((∏ i ∈ Finset.range t, D (B i)) * (1 - δ) ^ n) * (1 - δ) := by
              rw [ENNReal.tsum_mul_left]; gcongr
          _ = _ := by ring
      · have : AllFail out nxt good Inv (n + 1) t s = ∅ := by
          ext ω; simp [AllFail, hi]
        rw [this, Set.inter_empty, measure_empty]
        exact zero_le
  have h := key n t s (fun _ => Set.univ) (fun _ => MeasurableSet.univ)
  simpa using h

end Verif
