/-
C62: what a run depends on in the costs.
-/
import Verif.Lemmas.CostMap
import Verif.Spec.Meta
import Verif.Model.Examples

namespace Verif

open PyCost

section
variable {R C D σ Ω : Type} [PyCost C] [PyCost D]

theorem sameSearch_of_map {φ : C → D} {ftol : C} {ftol' : D} {env : Env C} {env' : Env D}
    (h : CostMap φ ftol ftol') (he : EnvMap φ env env') (e : Eda R σ Ω) (f : ℕ → R → C) (pm : σ)
    (ρ : Rand Ω) :
    Spec.SameSearch φ (minimize env e f ftol pm ρ)
      (minimize env' e (fun k r => φ (f k r)) ftol' pm ρ) := by
  rw [minimize_map h he]
  cases minimize env e f ftol pm ρ with
  | error err => rfl
  | ok x =>
    obtain ⟨res, s⟩ := x
    refine ⟨rfl, rfl, rfl, rfl, ?_⟩
    simp [Spec.asked, St.mapCost, Function.comp_def]

/-- A sort that only compares: the stable sort treats mapped costs alike. -/
theorem stableArgsort_map {φ : C → D} (hlt : ∀ a b, PyCost.lt (φ a) (φ b) = PyCost.lt a b)
    (heq : ∀ a b, PyCost.eq (φ a) (φ b) = PyCost.eq a b) (l : List C) :
    stableArgsort (l.map φ) = stableArgsort l := by
  have hle : ∀ a b : C, LeNanLast (φ a) (φ b) ↔ LeNanLast a b := by
    intro a b
    simp only [LeNanLast, IsNum, hlt, heq]
  have hpos : ∀ i j, posLe (l.map φ) i j ↔ posLe l i j := by
    intro i j
    unfold posLe
    simp only [List.getElem?_map]
    cases l[i]? <;> cases l[j]? <;> simp [hle]
  unfold stableArgsort
  rw [List.length_map]
  have : posLe (l.map φ) = posLe l := by
    funext i j; exact propext (hpos i j)
  have key : ∀ (r r' : ℕ → ℕ → Prop) [DecidableRel r] [DecidableRel r'], r = r' →
      ∀ m : List ℕ, m.insertionSort r = m.insertionSort r' := by
    intro r r' i1 i2 hr m
    subst hr
    congr
  exact key _ _ this _

end

section
variable {R σ Ω K : Type} [Field K] [LinearOrder K] [IsStrictOrderedRing K]

omit [IsStrictOrderedRing K] in
/-- C62 (tolerance 0): a strictly increasing transformation of the cost function does not change the
search; the reported costs are transformed. -/
theorem C62_order_only_partial {L : Type} [Field L] [LinearOrder L] [IsStrictOrderedRing L]
    (φ : K → L) (hφ : StrictMono φ) (env : Env K) (env' : Env L)
    (hcpu : env'.cpu = env.cpu) (hsched : env'.sched = env.sched)
    (hsort : ∀ l, env'.argsort (l.map φ) = env.argsort l)
    (e : Eda R σ Ω) (f : ℕ → R → K) (pm : σ) (ρ : Rand Ω) :
    Spec.SameSearch φ (minimize env e f 0 pm ρ)
      (minimize env' e (fun k r => φ (f k r)) 0 pm ρ) := by
  refine sameSearch_of_map ⟨?_, ?_, ?_, ?_⟩ ⟨hsort, hcpu, hsched⟩ e f pm ρ
  · intro a b; simp [hφ.lt_iff_lt, PyCost.lt]
  · intro a b; simp [hφ.injective.eq_iff, PyCost.eq]
  · intro a b; simp [hφ.lt_iff_lt, PyCost.lt, mulTol]
  · intro a b; rfl

/-- C62 (any tolerance): multiplying the cost function by a positive constant does not change the
search. -/
theorem C62_scaling (c : K) (hc : 0 < c) (env : Env K)
    (hsort : ∀ l, env.argsort (l.map (c * ·)) = env.argsort l)
    (e : Eda R σ Ω) (f : ℕ → R → K) (ftol : K) (pm : σ) (ρ : Rand Ω) :
    Spec.SameSearch (c * ·) (minimize env e f ftol pm ρ)
      (minimize env e (fun k r => c * f k r) ftol pm ρ) := by
  refine sameSearch_of_map (φ := (c * ·)) ⟨?_, ?_, ?_, ?_⟩ ⟨hsort, rfl, rfl⟩ e f pm ρ
  · intro a b; simp [PyCost.lt, hc]
  · intro a b; simp [PyCost.eq, hc.ne']
  · intro a b
    simp only [PyCost.lt, mulTol, mul_assoc, mul_lt_mul_iff_right₀ hc]
  · intro a b; rfl

end

/-- C62 is false for the default positive tolerance: subtracting 10 from a constant cost function
changes the number of generations. -/
theorem C62_refuted :
    ¬ ∀ (φ : ℚ → ℚ), StrictMono φ → ∀ (env : Env ℚ), (∀ l, env.argsort (l.map φ) = env.argsort l) →
      ∀ (e : Eda (List ℚ) (UniBin ℚ) (Draws ℚ)) (f : ℕ → List ℚ → ℚ) (pm : UniBin ℚ)
        (ρ : Rand (Draws ℚ)),
        Spec.SameSearch φ (minimize env e f (1/100) pm ρ)
          (minimize env e (fun k r => φ (f k r)) (1/100) pm ρ) := by
  intro h
  have hm : StrictMono (fun x : ℚ => x - 10) := fun a b hab => by simpa using hab
  have := h (fun x => x - 10) hm Ex.env
    (stableArgsort_map (by intro a b; simp [PyCost.lt]) (by intro a b; simp [PyCost.eq]))
    Ex.edaDead (fun _ _ => 5) Ex.pm Ex.rand
  have e1 : minimize Ex.env Ex.edaDead (fun _ _ => 5) (1/100) Ex.pm Ex.rand = Ex.runPos := rfl
  have e2 : minimize Ex.env Ex.edaDead (fun _ _ => (5 : ℚ) - 10) (1/100) Ex.pm Ex.rand = Ex.runNeg := by
    unfold Ex.runNeg; norm_num
  rw [e1] at this
  simp only [e2] at this
  obtain ⟨a, ha, hfa⟩ := Ex.facts_of Ex.runPos_facts
  obtain ⟨b, hb, hfb⟩ := Ex.facts_of Ex.runNeg_facts
  rw [ha, hb] at this
  have := this.2.2.2.1
  rw [hfa, hfb] at this
  exact absurd (congrArg List.length this) (by simp)

/-- The hypotheses can be met: cubing the costs of the concrete run, and scaling them. -/
example : Spec.SameSearch (fun x : ℚ => x ^ 3) Ex.run
    (minimize Ex.env Ex.eda (fun k r => Ex.cost k r ^ 3) 0 Ex.pm Ex.rand) := by
  have hm : StrictMono (fun x : ℚ => x ^ 3) := Odd.strictMono_pow (by decide)
  exact C62_order_only_partial _ hm Ex.env Ex.env rfl rfl
    (stableArgsort_map (by intro a b; simp [PyCost.lt, hm.lt_iff_lt])
      (by intro a b; simp [PyCost.eq, hm.injective.eq_iff])) _ _ _ _

example : Spec.SameSearch ((3 : ℚ) * ·) Ex.runTol
    (minimize Ex.env Ex.eda (fun k r => 3 * Ex.cost k r) (1/2) Ex.pm Ex.randWorse) :=
  C62_scaling 3 (by norm_num) Ex.env
    (stableArgsort_map (by intro a b; simp [PyCost.lt]) (by intro a b; simp [PyCost.eq])) _ _ _ _ _

end Verif
