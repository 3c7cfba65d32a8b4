/-
C87: UMDAd treats both values of a bit alike.
-/
import Verif.Lemmas.Flip

namespace Verif

open PyCost Spec MeasureTheory

section
variable {C : Type} [PyCost C] {env : Env C} {cfg : UMDAdCfg ℝ} {S : ℕ → Bool} {ρ : Rand (Draws ℝ)}
variable {e : Eda (List ℝ) (UniBin ℝ) (Draws ℝ)} {b : UniBin ℝ} {f f' : ℕ → List ℝ → C} {ftol : C}

/-- The constructor accepts the renamed problem. -/
theorem C87_constructor (h : UMDAd id cfg = .ok (e, b)) : ∃ e', UMDAd id (flipCfg S cfg) = .ok (e', b) := by
  unfold UMDAd mkEda mkEdaG at h ⊢
  simp only [flipCfg] at h ⊢
  split at h
  · cases h
  rename_i a ha
  split at h
  · cases h
  rename_i m hm
  obtain ⟨_, rfl⟩ := Prod.mk.inj (Except.ok.inj h)
  by_cases hd : cfg.base.deadIter ≤ cfg.base.maxIter
  · rw [if_neg (not_not.2 hd)] at ha
    simp only [hd, not_true_eq_false, if_false]
    cases hi : cfg.base.initData with
    | none => exact ⟨_, rfl⟩
    | some d =>
      rw [hi] at ha
      simp only [Option.map_some] at ha ⊢
      by_cases hc : d.cols = cfg.base.nVars
      · simp only [hc, if_true]
        exact ⟨_, rfl⟩
      · rw [if_neg hc] at ha
        cases ha
  · rw [if_pos hd] at ha
    cases ha

/-- **C87**, run by run: as long as no draw equals a probability, the run on the renamed problem with the
renamed draws returns the renamed result. -/
theorem C87_run [LawfulCost C] {e' : Eda (List ℝ) (UniBin ℝ) (Draws ℝ)} {b' : UniBin ℝ} (hv : env.Valid)
    (h : UMDAd id cfg = .ok (e, b))
    (h' : UMDAd id (flipCfg S cfg) = .ok (e', b')) (hw : cfg.WF) (h1 : cfg.lower + cfg.upper = 1)
    (hdata : ∀ d, cfg.base.initData = some d → ∀ r ∈ d.rows, BinaryRow cfg.base.nVars r)
    (hf : ∀ k r, BinaryRow cfg.base.nVars r → f' k (flipAt S r) = f k r)
    {u : ℕ × ℕ × ℕ → ℝ} (hu : NoTie cfg u) :
    (minimize env e' f' ftol b' (drawsAt ρ (flipDraws S u))).map Prod.fst =
      (minimize env e f ftol b (drawsAt ρ u)).map (fun x => flipRes S x.1) := by
  obtain ⟨_, _, hb⟩ := UMDAd_ok h
  obtain ⟨_, _, hb'⟩ := UMDAd_ok h'
  have := minimize_sim (f := f) (f' := f') (ftol := ftol) hv (flip_sim (ρ := ρ) h h' hw h1 hdata hu)
    (by rintro k r r' ⟨hr, rfl⟩; exact hf k r hr)
    (m := b) (m' := b') (by subst hb hb'; exact ⟨rfl, rfl, rfl, rfl, rfl, rfl⟩)
  generalize minimize env e f ftol b (drawsAt ρ u) = x at this
  generalize minimize env e' f' ftol b' (drawsAt ρ (flipDraws S u)) = y at this
  cases this with
  | error => rfl
  | @ok x y hxy =>
    obtain ⟨⟨h1, h2, h3, h4⟩, _⟩ := hxy
    obtain ⟨⟨i1, i2, i3, i4⟩, _⟩ := x
    obtain ⟨⟨j1, j2, j3, j4⟩, _⟩ := y
    simp only at h1 h2 h3 h4
    subst h2 h3 h4
    cases h1 with
    | index i => rfl
    | row hr => rw [hr.2]; rfl

/-- **C87**: with bounds that add up to 1 and independent uniform draws, the outcome of a run on the
renamed problem is distributed as the renamed outcome of a run on the original one. -/
theorem C87_flip [LawfulCost C] (hv : env.Valid) (h : UMDAd id cfg = .ok (e, b)) (hw : cfg.WF)
    (h1 : cfg.lower + cfg.upper = 1)
    (hdata : ∀ d, cfg.base.initData = some d → ∀ r ∈ d.rows, BinaryRow cfg.base.nVars r)
    (hf : ∀ k r, BinaryRow cfg.base.nVars r → f' k (flipAt S r) = f k r) :
    ∃ e', UMDAd id (flipCfg S cfg) = .ok (e', b) ∧ ∀ A : Set (Except PyErr (EdaResult (List ℝ) C)),
      drawLaw {u | (minimize env e' f' ftol b (drawsAt ρ u)).map Prod.fst ∈ A} =
        drawLaw {u | (minimize env e f ftol b (drawsAt ρ u)).map (fun x => flipRes S x.1) ∈ A} := by
  obtain ⟨e', h'⟩ := C87_constructor (S := S) h
  refine ⟨e', h', fun A => ?_⟩
  have hmp : MeasurePreserving (flipEquiv S) drawLaw drawLaw := ⟨measurable_flipDraws, drawLaw_flip⟩
  rw [← hmp.measure_preimage_equiv]
  refine measure_congr ?_
  filter_upwards [ae_noTie cfg] with u hu
  have := C87_run (ρ := ρ) (ftol := ftol) hv h h' hw h1 hdata hf hu
  exact propext (by
    change (minimize env e' f' ftol b (drawsAt ρ (flipDraws S u))).map Prod.fst ∈ A ↔ _
    rw [this]; rfl)

/-- What an experiment reports: the best cost, the number of evaluations and the history. -/
def Spec.Report (x : Except PyErr (EdaResult (List ℝ) C × St (List ℝ) C (UniBin ℝ))) :
    Except PyErr (C × ℤ × List C) :=
  x.map (fun y => (y.1.bestCost, y.1.nFev, y.1.history))

/-- The number of places in which two strings differ. -/
def Spec.mismatch (s r : List ℝ) : ℝ := (List.zipWith (fun a b => |a - b|) s r).sum

theorem mismatch_flip {n : ℕ} {s s' r : List ℝ} (hs : BinaryRow n s) (hs' : BinaryRow n s') (hr : BinaryRow n r) :
    Spec.mismatch s' (flipAt (fun j => decide (s[j]? ≠ s'[j]?)) r) = Spec.mismatch s r := by
  unfold Spec.mismatch
  congr 1
  apply List.ext_getElem?
  intro j
  rw [List.getElem?_zipWith, List.getElem?_zipWith, flipAt_getElem?]
  rcases Nat.lt_or_ge j n with hj | hj
  · obtain ⟨l1, a1⟩ := hs
    obtain ⟨l2, a2⟩ := hs'
    obtain ⟨l3, a3⟩ := hr
    rw [List.getElem?_eq_getElem (by omega), List.getElem?_eq_getElem (by omega),
      List.getElem?_eq_getElem (by omega)]
    have b1 := a1 (s[j]'(by omega)) (List.getElem_mem _)
    have b2 := a2 (s'[j]'(by omega)) (List.getElem_mem _)
    have b3 := a3 (r[j]'(by omega)) (List.getElem_mem _)
    generalize s[j]'(by omega) = x at b1
    generalize s'[j]'(by omega) = y at b2
    generalize r[j]'(by omega) = z at b3
    rcases b1 with rfl | rfl <;> rcases b2 with rfl | rfl <;> rcases b3 with rfl | rfl <;> norm_num
  · rw [List.getElem?_eq_none (by rw [hs'.1]; exact hj), List.getElem?_eq_none (by rw [hs.1]; exact hj)]

/-- **C87** for a hidden string: without a `vector` and without initial data, the string to be found has no
influence on the distribution of the best cost, of the number of evaluations and of the history. -/
theorem C87_hidden [LawfulCost C] (hv : env.Valid) (h : UMDAd id cfg = .ok (e, b))
    (h1 : cfg.lower + cfg.upper = 1) (hvec : cfg.vector = none) (hinit : cfg.base.initData = none)
    {s s' : List ℝ} (hs : BinaryRow cfg.base.nVars s) (hs' : BinaryRow cfg.base.nVars s') (g : ℝ → C)
    (A : Set (Except PyErr (C × ℤ × List C))) :
    drawLaw {u | Spec.Report (minimize env e (fun _ r => g (Spec.mismatch s' r)) ftol b (drawsAt ρ u)) ∈ A} =
      drawLaw {u | Spec.Report (minimize env e (fun _ r => g (Spec.mismatch s r)) ftol b (drawsAt ρ u)) ∈ A} := by
  have hc : flipCfg (fun j => decide (s[j]? ≠ s'[j]?)) cfg = cfg := by
    obtain ⟨⟨_, _, _, _, _, _, _, i, _⟩, v, _, _⟩ := cfg
    simp only at hvec hinit
    subst hvec hinit
    rfl
  obtain ⟨e', he', key⟩ := C87_flip (ρ := ρ) (ftol := ftol) (S := fun j => decide (s[j]? ≠ s'[j]?))
    (f := fun _ r => g (Spec.mismatch s r)) (f' := fun _ r => g (Spec.mismatch s' r)) hv h
    ⟨by simp [hvec], by simp [hinit]⟩ h1 (by simp [hinit])
    (fun k r hr => by rw [mismatch_flip hs hs' hr])
  rw [hc, h] at he'
  obtain rfl := (Prod.mk.inj (Except.ok.inj he')).1
  have := key {x | x.map (fun y => (y.bestCost, y.nFev, y.history)) ∈ A}
  have e1 : ∀ (x : Except PyErr (EdaResult (List ℝ) C × St (List ℝ) C (UniBin ℝ))),
      (x.map Prod.fst).map (fun y => (y.bestCost, y.nFev, y.history)) = Spec.Report x := by
    intro x; cases x <;> rfl
  have e2 : ∀ (S : ℕ → Bool) (x : Except PyErr (EdaResult (List ℝ) C × St (List ℝ) C (UniBin ℝ))),
      (x.map (fun x => flipRes S x.1)).map (fun y => (y.bestCost, y.nFev, y.history)) = Spec.Report x := by
    intro S x; cases x <;> rfl
  simpa only [Set.mem_ofPred_eq, e1, e2] using this

end

/-- With the default bounds, `[1, 0]` and `[1, 1]` are found equally fast. -/
example {e b} (h : UMDAd id realCfg = .ok (e, b)) (ρ : Rand (Draws ℝ)) (N : ℤ) :
    drawLaw {u | ∃ x, Spec.Report (minimize realEnv e (fun _ r => Spec.mismatch [1, 0] r) 0 b (drawsAt ρ u)) = .ok x ∧
      x.1 = 0 ∧ x.2.1 ≤ N} =
    drawLaw {u | ∃ x, Spec.Report (minimize realEnv e (fun _ r => Spec.mismatch [1, 1] r) 0 b (drawsAt ρ u)) = .ok x ∧
      x.1 = 0 ∧ x.2.1 ≤ N} :=
  C87_hidden realEnv_valid h (by norm_num [realCfg]) rfl rfl (s := [1, 1]) (s' := [1, 0]) ⟨rfl, by simp⟩ ⟨rfl, by simp⟩ id
    {y | ∃ x, y = .ok x ∧ x.1 = 0 ∧ x.2.1 ≤ N}

example : ∃ x, UMDAd id realCfg = .ok x := by
  unfold UMDAd mkEda mkEdaG UniBin.new
  norm_num [realCfg]

/-- Renaming the second bit of a cost function that is not a distance. -/
example {e b} (h : UMDAd id { realCfg with vector := some [1/3, 1/4] } = .ok (e, b)) (ρ : Rand (Draws ℝ)) :
    ∃ e', UMDAd id { realCfg with vector := some [1/3, 1 - 1/4] } = .ok (e', b) ∧
      ∀ A : Set (Except PyErr (EdaResult (List ℝ) ℝ)),
      drawLaw {u | (minimize realEnv e' (fun _ r => r.getD 0 0 * (1 - r.getD 1 0)) 0 b (drawsAt ρ u)).map Prod.fst ∈ A} =
        drawLaw {u | (minimize realEnv e (fun _ r => r.getD 0 0 * r.getD 1 0) 0 b (drawsAt ρ u)).map
          (fun x => flipRes (fun j => j == 1) x.1) ∈ A} := by
  have := C87_flip (ρ := ρ) (ftol := 0) (S := fun j => j == 1) realEnv_valid h (by constructor <;> simp [realCfg])
    (by norm_num [realCfg]) (by simp [realCfg]) (f := fun _ r => r.getD 0 0 * r.getD 1 0)
    (f' := fun _ r => r.getD 0 0 * (1 - r.getD 1 0)) (by
      rintro k r ⟨hl, -⟩
      match r, hl with
      | [x, y], _ => simp [flipAt])
  simpa [flipCfg, flipAt, realCfg] using this

end Verif
