/-
C97: the search does not depend on the direction of the axes.
-/
import Verif.Lemmas.Mirror
import Verif.Lemmas.ConvBox
import Verif.Lemmas.Structure
import Verif.Props.Equivariance
import Verif.Props.Leave
import Mathlib.MeasureTheory.Group.Measure

namespace Verif

open Spec MeasureTheory ProbabilityTheory

/-! ### Draw by draw -/

section draws
variable {K C : Type} [Field K] [LinearOrder K] [IsStrictOrderedRing K] [FloorRing K] [PyCost C]
variable {sq : K → K} {sg : ℕ → K} {env : Env C} {ftol : C}
variable {f f' : ℕ → List K → C} {ρ ρ' : Rand (Draws K)}

/-- **C97** (`UMDAc`, draw by draw): reversing any of the axes reverses them in the whole run (exact
arithmetic). -/
theorem C97_UMDAc_partial (hv : env.Valid) {cfg cfg' : UMDAcCfg K} (hs : IsSigns cfg.base.nVars sg)
    (h : MirrorCont sg cfg cfg') {e e' : Eda (List K) (UniGauss K) (Draws K)} {b b' : UniGauss K}
    (he : UMDAc id sq cfg = .ok (e, b)) (he' : UMDAc id sq cfg' = .ok (e', b'))
    (hρ : MirrorRand sg cfg.base.nVars cfg.vector.isNone ρ ρ')
    (hf : ∀ k r, r.length = cfg.base.nVars → f' k (mirror sg cfg.base.nVars r) = f k r) :
    Image (mirror sg cfg.base.nVars) (minimize env e f ftol b ρ) (minimize env e' f' ftol b' ρ') := by
  obtain ⟨h1, h2⟩ := mir_UMDAc hs h he he' hρ
  exact image_of_sim (minimize_sim hv h1 (fun k r r' hr => by rw [hr.2]; exact hf k r hr.1) h2)

/-- **C97** (`PBIL`, draw by draw). -/
theorem C97_PBIL_partial (hv : env.Valid) {cfg cfg' : UMDAcCfg K} (hs : IsSigns cfg.base.nVars sg)
    (h : MirrorCont sg cfg cfg') {e e' : Eda (List K) (UniGauss K) (Draws K)} {b b' : UniGauss K}
    (he : PBIL id sq cfg = .ok (e, b)) (he' : PBIL id sq cfg' = .ok (e', b'))
    (hρ : MirrorRand sg cfg.base.nVars cfg.vector.isNone ρ ρ')
    (hf : ∀ k r, r.length = cfg.base.nVars → f' k (mirror sg cfg.base.nVars r) = f k r) :
    Image (mirror sg cfg.base.nVars) (minimize env e f ftol b ρ) (minimize env e' f' ftol b' ρ') := by
  obtain ⟨h1, h2⟩ := mir_PBIL hs h he he' hρ
  exact image_of_sim (minimize_sim hv h1 (fun k r r' hr => by rw [hr.2]; exact hf k r hr.1) h2)

/-- **C97** (`EMNA`, draw by draw): only for all axes together (`s = -1`), i.e. for the reflection of the
whole space through the origin; `C97_refuted` shows that one axis alone may not be reversed. -/
theorem C97_EMNA_partial (hv : env.Valid) {s : K} (hs : s = 1 ∨ s = -1)
    {fac : List (List K) → List (List K)} {cfg cfg' : EMNACfg K}
    (hb : MirrorBase (fun _ => s) cfg.base cfg'.base)
    (hl : cfg'.lowerFactor = cfg.lowerFactor) (hu : cfg'.upperFactor = cfg.upperFactor)
    (hbd : cfg.base.initData ≠ none ∨ MirrorBounds (fun _ => s) cfg.base.nVars
      cfg.lower cfg.upper cfg'.lower cfg'.upper)
    {e e' : Eda (List K) (MultiGauss K) (Draws K)} {b b' : MultiGauss K}
    (he : EMNA id sq fac cfg = .ok (e, b)) (he' : EMNA id sq fac cfg' = .ok (e', b'))
    (hρ : MirrorRand (fun _ => s) cfg.base.nVars true ρ ρ')
    (hf : ∀ k r, r.length = cfg.base.nVars → f' k (mirror (fun _ => s) cfg.base.nVars r) = f k r) :
    Image (mirror (fun _ => s) cfg.base.nVars) (minimize env e f ftol b ρ) (minimize env e' f' ftol b' ρ') := by
  obtain ⟨h1, h2⟩ := mir_EMNA hs hb hl hu hbd he he' hρ
  exact image_of_sim (minimize_sim hv h1 (fun k r r' hr => by rw [hr.2]; exact hf k r hr.1) h2)

end draws

/-! ### In distribution -/

namespace Spec

/-- What a caller sees of a run: the exception, or the best individual, its cost, the number of
evaluations, the history, and the individuals evaluated with their costs, call by call. -/
abbrev Seen (C : Type) := Except PyErr (BestInd (List ℝ) × C × ℤ × List C × List (List (List ℝ × C)))

/-- The visible part of the outcome of a run. -/
def seen {C σ : Type} (out : Except PyErr (EdaResult (List ℝ) C × St (List ℝ) C σ)) : Seen C :=
  out.map (fun x => (x.1.bestInd, x.1.bestCost, x.1.nFev, x.1.history, x.2.log))

/-- The same in other coordinates. -/
def moveSeen {C : Type} (φ : List ℝ → List ℝ) (out : Seen C) : Seen C :=
  out.map (fun x => (moveBest φ x.1, x.2.1, x.2.2.1, x.2.2.2.1,
    x.2.2.2.2.map (List.map (fun y => (φ y.1, y.2)))))

/-- Independent draws, all with the same law. -/
noncomputable def iidDraws (ν : Measure ℝ) : Measure (Draws ℝ) :=
  Measure.infinitePi (fun _ : ℕ => Measure.infinitePi (fun _ : ℕ => ν))

/-- All that `UMDAc`, `PBIL` and `EMNA` draw, independently: numbers of the initializer (uniform or
standard normal), noise with deviation `w`, standard normal numbers for every generation. -/
noncomputable def allDraws (unif : Bool) (w : ℝ) : Measure (Draws ℝ × Draws ℝ × (ℕ → Draws ℝ)) :=
  (iidDraws (if unif then unif01 else gaussianReal 0 1)).prod
    ((iidDraws (gaussianReal 0 (.mk (w ^ 2) (sq_nonneg w)))).prod (eachGen normalDraws))

/-- The draws of a run (`learn` draws nothing). -/
def drawn (d : Draws ℝ × Draws ℝ × (ℕ → Draws ℝ)) : Rand (Draws ℝ) :=
  { init := d.1, noise := d.2.1, learn := fun _ _ _ => 0, sample := d.2.2 }

end Spec

theorem Spec.Image.seen {C σ σ' : Type} {φ : List ℝ → List ℝ}
    {x : Except PyErr (EdaResult (List ℝ) C × St (List ℝ) C σ)}
    {y : Except PyErr (EdaResult (List ℝ) C × St (List ℝ) C σ')} (h : Image φ x y) :
    Spec.seen y = moveSeen φ (Spec.seen x) := by
  match x, y, h with
  | .error err, .error err', h => cases h; rfl
  | .ok (res, s), .ok (res', s'), h =>
    obtain ⟨h1, h2, h3, h4, h5⟩ := h
    simp only [Spec.seen, moveSeen, Except.map, h1, h2, h3, h4, h5]

/-! The involutions of the draws. -/

/-- The map of the draws that acts on variable `j` by `S j`. -/
def actDraws (S : ℕ → ℝ → ℝ) (ω : Draws ℝ) : Draws ℝ := fun i j => S j (ω i j)

theorem actDraws_inv {S : ℕ → ℝ → ℝ} (h : ∀ j, Function.Involutive (S j)) : Function.Involutive (actDraws S) := by
  intro ω; funext i j; exact h j _

theorem actDraws_preserving {ν : Measure ℝ} [IsProbabilityMeasure ν] {S : ℕ → ℝ → ℝ}
    (h : ∀ j, MeasurePreserving (S j) ν ν) : MeasurePreserving (actDraws S) (iidDraws ν) (iidDraws ν) := by
  have hm : ∀ j, Measurable (S j) := fun j => (h j).measurable
  have h1 : (Measure.infinitePi (fun _ : ℕ => ν)).map (fun z j => S j (z j)) = Measure.infinitePi (fun _ : ℕ => ν) := by
    rw [Measure.infinitePi_map_pi _ hm]
    congr 1
    funext j
    exact (h j).map_eq
  refine ⟨by unfold actDraws; fun_prop, ?_⟩
  unfold iidDraws
  have h2 := Measure.infinitePi_map_pi (fun _ : ℕ => Measure.infinitePi (fun _ : ℕ => ν))
    (f := fun (_ : ℕ) (z : ℕ → ℝ) j => S j (z j)) (by intro i; fun_prop)
  rw [h1] at h2
  exact h2

/-- The sign of variable `j`, `1` beyond the last variable. -/
noncomputable def sgn (n : ℕ) (sg : ℕ → ℝ) (j : ℕ) : ℝ := if j < n then sg j else 1

theorem sgn_sq {n : ℕ} {sg : ℕ → ℝ} (h : IsSigns n sg) (j : ℕ) : sgn n sg j = 1 ∨ sgn n sg j = -1 := by
  unfold sgn
  split
  · rename_i hj; exact h j hj
  · exact .inl rfl

theorem normal_sign {s : ℝ} (h : s = 1 ∨ s = -1) (v : NNReal) :
    MeasurePreserving (fun x => s * x) (gaussianReal 0 v) (gaussianReal 0 v) := by
  refine ⟨by fun_prop, ?_⟩
  rw [gaussianReal_map_const_mul]
  rcases h with rfl | rfl <;> simp

theorem unif_flip : MeasurePreserving (fun x : ℝ => 1 - x) unif01 unif01 := by
  have h1 : MeasurePreserving (fun x : ℝ => 1 - x) volume volume := Measure.measurePreserving_sub_left volume 1
  have h2 : (fun x : ℝ => 1 - x) ⁻¹' (Set.Ioc 0 1) = Set.Ico 0 1 := by
    ext x; simp only [Set.mem_preimage, Set.mem_Ioc, Set.mem_Ico]
    constructor <;> rintro ⟨a, b⟩ <;> constructor <;> linarith
  have h3 := h1.restrict_preimage (measurableSet_Ioc (a := (0 : ℝ)) (b := 1))
  rw [h2] at h3
  unfold unif01
  have h4 : (volume : Measure ℝ).restrict (Set.Ioc 0 1) = volume.restrict (Set.Ico 0 1) :=
    Measure.restrict_congr_set Ico_ae_eq_Ioc.symm
  rw [h4] at h3
  exact h3

instance unif01_isProb : IsProbabilityMeasure unif01 := ⟨by simp [unif01]⟩

/-- The mirrored draws of the initializer. -/
noncomputable def initAct (n : ℕ) (sg : ℕ → ℝ) (unif : Bool) (j : ℕ) (x : ℝ) : ℝ :=
  if unif then (if sgn n sg j = 1 then x else 1 - x) else sgn n sg j * x

theorem sgn_inv {n : ℕ} {sg : ℕ → ℝ} (h : IsSigns n sg) (j : ℕ) : Function.Involutive (fun x => sgn n sg j * x) := by
  intro x
  rcases sgn_sq h j with e | e <;> simp [e]

theorem initAct_inv {n : ℕ} {sg : ℕ → ℝ} (h : IsSigns n sg) (unif : Bool) (j : ℕ) :
    Function.Involutive (initAct n sg unif j) := by
  intro x
  unfold initAct
  cases unif
  · exact sgn_inv h j x
  · simp only [if_true]
    split <;> simp

theorem initAct_preserving {n : ℕ} {sg : ℕ → ℝ} (h : IsSigns n sg) (unif : Bool) (j : ℕ) :
    MeasurePreserving (initAct n sg unif j) (if unif then unif01 else gaussianReal 0 1)
      (if unif then unif01 else gaussianReal 0 1) := by
  cases unif
  · exact normal_sign (sgn_sq h j) 1
  · by_cases hj : sgn n sg j = 1
    · have : initAct n sg true j = id := by funext x; simp [initAct, hj]
      rw [this]
      exact MeasurePreserving.id _
    · have : initAct n sg true j = fun x => 1 - x := by funext x; simp [initAct, hj]
      rw [this]
      exact unif_flip

/-- Mirroring all draws of a run. -/
noncomputable def mirrorAll (n : ℕ) (sg : ℕ → ℝ) (unif : Bool) (d : Draws ℝ × Draws ℝ × (ℕ → Draws ℝ)) :
    Draws ℝ × Draws ℝ × (ℕ → Draws ℝ) :=
  (actDraws (initAct n sg unif) d.1, actDraws (fun j x => sgn n sg j * x) d.2.1,
    fun t => actDraws (fun j x => sgn n sg j * x) (d.2.2 t))

theorem mirrorAll_inv {n : ℕ} {sg : ℕ → ℝ} (h : IsSigns n sg) (unif : Bool) :
    Function.Involutive (mirrorAll n sg unif) := by
  intro d
  refine Prod.ext ?_ (Prod.ext ?_ ?_)
  · exact actDraws_inv (initAct_inv h unif) _
  · exact actDraws_inv (sgn_inv h) _
  · funext t; exact actDraws_inv (sgn_inv h) _

instance {ν : Measure ℝ} [IsProbabilityMeasure ν] : IsProbabilityMeasure (iidDraws ν) := by
  unfold iidDraws; infer_instance

theorem mirrorAll_preserving {n : ℕ} {sg : ℕ → ℝ} (h : IsSigns n sg) (unif : Bool) (w : ℝ) :
    MeasurePreserving (mirrorAll n sg unif) (allDraws unif w) (allDraws unif w) := by
  have hp : IsProbabilityMeasure (if unif then unif01 else gaussianReal 0 1) := by
    cases unif <;> simp <;> infer_instance
  have h3 : MeasurePreserving (fun (z : ℕ → Draws ℝ) t => actDraws (fun j x => sgn n sg j * x) (z t))
      (eachGen Spec.normalDraws) (eachGen Spec.normalDraws) := by
    have h0 : MeasurePreserving (actDraws fun j x => sgn n sg j * x) Spec.normalDraws Spec.normalDraws :=
      actDraws_preserving (fun j => normal_sign (sgn_sq h j) 1)
    have hq : IsProbabilityMeasure Spec.normalDraws := inferInstanceAs (IsProbabilityMeasure (iidDraws (gaussianReal 0 1)))
    refine ⟨?_, ?_⟩
    · have := h0.measurable
      fun_prop
    · unfold eachGen
      rw [Measure.infinitePi_map_pi _ (fun _ => h0.measurable)]
      congr 1
      funext t
      exact h0.map_eq
  have hq : IsProbabilityMeasure (eachGen Spec.normalDraws) := by
    have hq : IsProbabilityMeasure Spec.normalDraws := inferInstanceAs (IsProbabilityMeasure (iidDraws (gaussianReal 0 1)))
    unfold eachGen; infer_instance
  exact (actDraws_preserving (initAct_preserving h unif)).prod
    ((actDraws_preserving (fun j => normal_sign (sgn_sq h j) _)).prod h3)

theorem mirrorAll_rand {n : ℕ} (sg : ℕ → ℝ) (unif : Bool) (d : Draws ℝ × Draws ℝ × (ℕ → Draws ℝ)) :
    MirrorRand sg n unif (drawn d) (drawn (mirrorAll n sg unif d)) := by
  refine ⟨?_, ?_, ?_⟩
  · cases unif
    · intro i j hj; simp [drawn, mirrorAll, actDraws, initAct, sgn, hj]
    · intro i j hj; simp [drawn, mirrorAll, actDraws, initAct, sgn, hj]
  · intro i j hj; simp [drawn, mirrorAll, actDraws, sgn, hj]
  · intro t i j hj; simp [drawn, mirrorAll, actDraws, sgn, hj]

/-- A run on mirrored draws that is the mirror image of a run has the law of the mirrored run. -/
theorem mirror_law {C : Type} {n : ℕ} {sg : ℕ → ℝ} (h : IsSigns n sg) (unif : Bool) (w : ℝ) {φ : List ℝ → List ℝ}
    {run run' : Rand (Draws ℝ) → Seen C}
    (hr : ∀ ρ ρ', MirrorRand sg n unif ρ ρ' → run' ρ' = moveSeen φ (run ρ)) (Q : Set (Seen C)) :
    allDraws unif w {d | run' (drawn d) ∈ Q} = allDraws unif w {d | moveSeen φ (run (drawn d)) ∈ Q} := by
  have hp := mirrorAll_preserving h unif w
  have key := MeasurePreserving.measure_preimage_equiv
    (f := MeasurableEquiv.ofInvolutive _ (mirrorAll_inv h unif) hp.measurable) hp {d | run' (drawn d) ∈ Q}
  rw [← key]
  congr 1
  ext d
  show run' (drawn (mirrorAll n sg unif d)) ∈ Q ↔ moveSeen φ (run (drawn d)) ∈ Q
  rw [hr _ _ (mirrorAll_rand sg unif d)]

variable {C : Type} [PyCost C] {sq : ℝ → ℝ} {sg : ℕ → ℝ} {env : Env C} {ftol : C} {f f' : ℕ → List ℝ → C}

/-- **C97** (`UMDAc`, in distribution): with independent draws (uniform or normal in the initializer, normal
noise, normal samples), the run on the problem with reversed axes has exactly the distribution of the
reversed run: every set of outcomes has the same probability. -/
theorem C97_UMDAc_law_partial (hv : env.Valid) {cfg cfg' : UMDAcCfg ℝ} (hs : IsSigns cfg.base.nVars sg)
    (h : MirrorCont sg cfg cfg') {e e' : Eda (List ℝ) (UniGauss ℝ) (Draws ℝ)} {b b' : UniGauss ℝ}
    (he : UMDAc id sq cfg = .ok (e, b)) (he' : UMDAc id sq cfg' = .ok (e', b'))
    (hf : ∀ k r, r.length = cfg.base.nVars → f' k (mirror sg cfg.base.nVars r) = f k r) (w : ℝ)
    (Q : Set (Seen C)) :
    allDraws cfg.vector.isNone w {d | seen (minimize env e' f' ftol b' (drawn d)) ∈ Q} =
      allDraws cfg.vector.isNone w
        {d | moveSeen (mirror sg cfg.base.nVars) (seen (minimize env e f ftol b (drawn d))) ∈ Q} :=
  mirror_law (run := fun ρ => seen (minimize env e f ftol b ρ))
    (run' := fun ρ => seen (minimize env e' f' ftol b' ρ)) hs _ w
    (fun _ _ hρ => (C97_UMDAc_partial hv hs h he he' hρ hf).seen) Q

/-- **C97** (`PBIL`, in distribution). -/
theorem C97_PBIL_law_partial (hv : env.Valid) {cfg cfg' : UMDAcCfg ℝ} (hs : IsSigns cfg.base.nVars sg)
    (h : MirrorCont sg cfg cfg') {e e' : Eda (List ℝ) (UniGauss ℝ) (Draws ℝ)} {b b' : UniGauss ℝ}
    (he : PBIL id sq cfg = .ok (e, b)) (he' : PBIL id sq cfg' = .ok (e', b'))
    (hf : ∀ k r, r.length = cfg.base.nVars → f' k (mirror sg cfg.base.nVars r) = f k r) (w : ℝ)
    (Q : Set (Seen C)) :
    allDraws cfg.vector.isNone w {d | seen (minimize env e' f' ftol b' (drawn d)) ∈ Q} =
      allDraws cfg.vector.isNone w
        {d | moveSeen (mirror sg cfg.base.nVars) (seen (minimize env e f ftol b (drawn d))) ∈ Q} :=
  mirror_law (run := fun ρ => seen (minimize env e f ftol b ρ))
    (run' := fun ρ => seen (minimize env e' f' ftol b' ρ)) hs _ w
    (fun _ _ hρ => (C97_PBIL_partial hv hs h he he' hρ hf).seen) Q

/-- **C97** (`EMNA`, in distribution): all axes together. -/
theorem C97_EMNA_law_partial (hv : env.Valid) {s : ℝ} (hs : s = 1 ∨ s = -1)
    {fac : List (List ℝ) → List (List ℝ)} {cfg cfg' : EMNACfg ℝ}
    (hb : MirrorBase (fun _ => s) cfg.base cfg'.base)
    (hl : cfg'.lowerFactor = cfg.lowerFactor) (hu : cfg'.upperFactor = cfg.upperFactor)
    (hbd : cfg.base.initData ≠ none ∨ MirrorBounds (fun _ => s) cfg.base.nVars
      cfg.lower cfg.upper cfg'.lower cfg'.upper)
    {e e' : Eda (List ℝ) (MultiGauss ℝ) (Draws ℝ)} {b b' : MultiGauss ℝ}
    (he : EMNA id sq fac cfg = .ok (e, b)) (he' : EMNA id sq fac cfg' = .ok (e', b'))
    (hf : ∀ k r, r.length = cfg.base.nVars → f' k (mirror (fun _ => s) cfg.base.nVars r) = f k r) (w : ℝ)
    (Q : Set (Seen C)) :
    allDraws true w {d | seen (minimize env e' f' ftol b' (drawn d)) ∈ Q} =
      allDraws true w
        {d | moveSeen (mirror (fun _ => s) cfg.base.nVars) (seen (minimize env e f ftol b (drawn d))) ∈ Q} :=
  mirror_law (run := fun ρ => seen (minimize env e f ftol b ρ))
    (run' := fun ρ => seen (minimize env e' f' ftol b' ρ)) (n := cfg.base.nVars) (sg := fun _ => s)
    (fun _ _ => hs) _ w (fun _ _ hρ => (C97_EMNA_partial hv hs hb hl hu hbd he he' hρ hf).seen) Q

/-! ### One axis for `EMNA` -/

/-- `EMNA` started from two individuals on the diagonal (`s = 1`) or on the other diagonal (`s = -1`). -/
noncomputable def Ex.slant (s : ℝ) : EMNACfg ℝ :=
  { base := { sizeGen := 2, maxIter := 2, deadIter := 2, nVars := 2, alpha := 1, eliteFactor := 0,
              parallel := false, wNoise := none,
              initData := some { dt := .float, cols := 2, rows := [[1/2, s * (1/2)], [-1/2, s * (-1/2)]] } }
    lower := .scalar 0, upper := .scalar 0, lowerFactor := 0, upperFactor := 100 }

/-- The second variable is reversed. -/
def Ex.second (j : ℕ) : ℝ := if j = 0 then 1 else -1

/-- The matrix learned from the two individuals. -/
noncomputable def Ex.slantCov (s : ℝ) : List (List ℝ) := [[1/2, max 0 (s * (1/2))], [max 0 (s * (1/2)), 1/2]]

theorem Ex.slant_ok (fac : List (List ℝ) → List (List ℝ)) (s : ℝ) :
    ∃ e b, EMNA id Real.sqrt fac (Ex.slant s) = .ok (e, b) := by
  obtain ⟨e, h⟩ := EMNA_isOk (fl := id) (sq := Real.sqrt) (fac := fac) (cfg := Ex.slant s)
    (le_refl _) (by intro d hd; simp only [Ex.slant, Option.some.injEq] at hd; subst hd; rfl)
    ⟨_, rfl⟩
  exact ⟨e, _, h⟩

theorem Ex.slant_learn {s : ℝ} (hs : s = 1 ∨ s = -1) :
    (MultiGauss.new 2 0 100).learn Real.sqrt ⟨.float, 2, [[1/2, s * (1/2)], [-1/2, s * (-1/2)]]⟩ =
      .ok ⟨2, 0, 100, [0, 0], Ex.slantCov s⟩ := by
  have hq : Real.sqrt (1/4) = 1/2 := by
    rw [show (1/4 : ℝ) = (1/2) * (1/2) by norm_num, Real.sqrt_mul_self (by norm_num)]
  unfold MultiGauss.learn
  rw [if_neg (by simp [MultiGauss.new]), if_neg (by simp), if_neg (by simp)]
  have m0 : colMean [[1/2, s * (1/2)], [-1/2, s * (-1/2)]] 0 = 0 := by simp [colMean]; norm_num
  have m1 : colMean [[1/2, s * (1/2)], [-1/2, s * (-1/2)]] 1 = 0 := by simp [colMean]; ring
  have s0 : colStd Real.sqrt [[1/2, s * (1/2)], [-1/2, s * (-1/2)]] 0 = 1/2 := by
    unfold colStd; rw [m0]; refine (congrArg Real.sqrt ?_).trans hq; simp; norm_num
  have s1 : colStd Real.sqrt [[1/2, s * (1/2)], [-1/2, s * (-1/2)]] 1 = 1/2 := by
    unfold colStd; rw [m1]; refine (congrArg Real.sqrt ?_).trans hq
    rcases hs with rfl | rfl <;> simp <;> norm_num
  have c1 : covEntry [[1/2, s * (1/2)], [-1/2, s * (-1/2)]] 0 1 = s * (1/2) := by
    unfold covEntry; rw [m0, m1]; simp; ring
  have c2 : covEntry [[1/2, s * (1/2)], [-1/2, s * (-1/2)]] 1 0 = s * (1/2) := by
    unfold covEntry; rw [m0, m1]; simp; ring
  have cl : clampEntry 0 100 (s * (1/2)) = max 0 (s * (1/2)) := by
    unfold clampEntry
    rcases hs with rfl | rfl
    · norm_num
    · norm_num
  generalize ([[1/2, s * (1/2)], [-1/2, s * (-1/2)]] : List (List ℝ)) = D at *
  simp only [MultiGauss.new, List.range_succ, List.range_zero, List.nil_append, List.cons_append, List.map_cons,
    List.map_nil, m0, m1, s0, s1, c1, c2, cl, Ex.slantCov, if_true, one_ne_zero, zero_ne_one, if_false]

/-- The individuals sampled from the learned model. -/
noncomputable def Ex.slantRow (fac : List (List ℝ) → List (List ℝ)) (s : ℝ) (z : Draws ℝ) (i : ℕ) : List ℝ :=
  [z i 0 * entry (fac (Ex.slantCov s)) 0 0 + z i 1 * entry (fac (Ex.slantCov s)) 1 0,
   z i 0 * entry (fac (Ex.slantCov s)) 0 1 + z i 1 * entry (fac (Ex.slantCov s)) 1 1]

theorem Ex.slant_run {fac : List (List ℝ) → List (List ℝ)} {s : ℝ} (hs : s = 1 ∨ s = -1)
    {e : Eda (List ℝ) (MultiGauss ℝ) (Draws ℝ)} {b : MultiGauss ℝ}
    (h : EMNA id Real.sqrt fac (Ex.slant s) = .ok (e, b)) (ρ : Rand (Draws ℝ)) :
    ∃ res st, minimize Ex.env e (fun _ _ => 0) 0 b ρ = .ok (res, st) ∧
      st.log = [[([1/2, s * (1/2)], 0), ([-1/2, s * (-1/2)], 0)],
        [(Ex.slantRow fac s (ρ.sample 1) 0, 0), (Ex.slantRow fac s (ρ.sample 1) 1, 0)]] := by
  obtain ⟨h1, _, rfl⟩ := EMNA_ok h
  have hm := mkEda_ok h1
  have hmax : e.maxIter = 2 := hm.maxIter
  have hpar : e.parallel = false := hm.parallel
  have ht : e.truncLen = 2 := by
    rw [hm.truncLen]; simp [selLen, Ex.slant, pyInt, Num.truncZ]
  have hel : e.eliteLen = 0 := by
    rw [hm.eliteLen]; simp [selLen, Ex.slant, pyInt, Num.truncZ]
  have hi := (hm.initSome _ rfl).2
  have hn := hm.mkNoise ρ.noise
  simp only [BaseCfg.noiseAttr, mkWhiteNoise, Ex.slant] at hn
  have hlearn := Ex.slant_learn hs
  have hsample : MultiGauss.sample fac ⟨2, 0, 100, [0, 0], Ex.slantCov s⟩ 2 (ρ.sample 1) =
      .ok ⟨.float, 2, [Ex.slantRow fac s (ρ.sample 1) 0, Ex.slantRow fac s (ρ.sample 1) 1]⟩ := by
    unfold MultiGauss.sample
    rw [if_neg (by norm_num), if_neg (by simp [Ex.slantCov]), if_neg (by simp [Ex.slantCov])]
    simp [List.range_succ, Ex.slantRow]
  generalize hu : ([1/2, s * (1/2)] : List ℝ) = u at *
  generalize hu' : ([-1/2, s * (-1/2)] : List ℝ) = u' at *
  generalize Ex.slantRow fac s (ρ.sample 1) 0 = x at *
  generalize Ex.slantRow fac s (ρ.sample 1) 1 = y at *
  have hdata : (Ex.slant s).base.initData = some ⟨.float, 2, [u, u']⟩ := by rw [← hu, ← hu']; rfl
  have hi := (hm.initSome _ hdata).2
  have hstart : start Ex.env e (fun _ _ => (0 : ℚ)) (MultiGauss.new 2 0 100) ρ = .ok
      { gen := ⟨.float, 2, [u, u']⟩, evals := [0, 0], elite := ⟨.float, 2, [u]⟩,
        evalsElite := [0], bestCost := 0, bestInd := .index 0, pm := MultiGauss.new 2 0 100,
        history := [0], notBetter := 0, log := [[(u, 0), (u', 0)]] } := by
    unfold start
    rw [hi, hpar]
    rfl
  have htr : truncation Ex.env e
      { gen := ⟨.float, 2, [u, u']⟩, evals := [(0 : ℚ), 0], elite := ⟨.float, 2, [u]⟩,
        evalsElite := [0], bestCost := 0, bestInd := .index 0, pm := MultiGauss.new 2 0 100,
        history := [0], notBetter := 0, log := [[(u, 0), (u', 0)]] } = .ok
      { gen := ⟨.float, 2, [u, u']⟩, evals := [0, 0], elite := ⟨.float, 2, []⟩,
        evalsElite := [], bestCost := 0, bestInd := .index 0, pm := MultiGauss.new 2 0 100,
        history := [0], notBetter := 0, log := [[(u, 0), (u', 0)]] } := by
    unfold truncation
    rw [ht, hel]
    have ha : Ex.env.argsort [(0 : ℚ), 0, 0] = [0, 1, 2] := by decide +kernel
    simp only [Gen.concat, if_true, List.cons_append, List.nil_append, ha]
    rfl
  have hstep : ∃ s' brk, step Ex.env e (fun _ _ => (0 : ℚ)) 0 ρ (addNoise .zero) 1
      { gen := ⟨.float, 2, [u, u']⟩, evals := [(0 : ℚ), 0], elite := ⟨.float, 2, [u]⟩,
        evalsElite := [0], bestCost := 0, bestInd := .index 0, pm := MultiGauss.new 2 0 100,
        history := [0], notBetter := 0, log := [[(u, 0), (u', 0)]] } = .ok (s', brk) ∧
      s'.log = [[(u, 0), (u', 0)], [(x, 0), (y, 0)]] := by
    unfold step
    rw [htr]
    simp only [addNoise, hm.updatePm, hm.sample, hlearn]
    have : (Ex.slant s).base.sizeGen = 2 := rfl
    rw [this, hsample, hpar]
    have h0 : PyCost.lt (0 : ℚ) (PyCost.mulTol 0 0) = false := by decide +kernel
    refine ⟨?_, ?_, ?_, ?_⟩
    · exact
        { gen := ⟨.float, 2, [x, y]⟩, evals := [0, 0],
          elite := ⟨.float, 2, []⟩, evalsElite := [], bestCost := 0, bestInd := .index 0,
          pm := ⟨2, 0, 100, [0, 0], Ex.slantCov s⟩, history := [0, 0], notBetter := 1,
          log := [[(u, 0), (u', 0)], [(x, 0), (y, 0)]] }
    · exact decide ((0 : ℤ) + 1 = e.deadIter)
    · have hcg : checkGeneration Ex.env false (fun (_ : ℕ) (_ : List ℝ) => (0 : ℚ)) 2
          [x, y] = .ok ⟨[(x, 0), (y, 0)], [0, 0]⟩ := rfl
      have hp : pyMin [(0 : ℚ), 0] = some 0 := by decide +kernel
      have hw : whereFirst [(0 : ℚ), 0] 0 = some 0 := by decide +kernel
      have hl : [[(u, (0 : ℚ)), (u', 0)]].flatten.length = 2 := rfl
      simp only [hl, hcg, hp, hw, h0]
      rfl
    · rfl
  obtain ⟨s', brk, hst, hl⟩ := hstep
  have hb : MultiGauss.new (Ex.slant s).base.nVars (Ex.slant s).lowerFactor
      (Ex.slant s).upperFactor = MultiGauss.new 2 0 100 := rfl
  rw [hb]
  unfold minimize
  rw [hstart, hn, hmax]
  refine ⟨⟨s'.bestInd, s'.bestCost, s'.history.length * e.sizeGen, s'.history⟩, s', ?_, hl⟩
  simp only [if_true]
  have : ((2 : ℤ) - 1).toNat = 1 := by decide
  rw [this]
  unfold loop
  rw [hst]
  cases brk <;> rfl

theorem Ex.slant_base : MirrorBase Ex.second (Ex.slant 1).base (Ex.slant (-1)).base where
  sizeGen := rfl
  maxIter := rfl
  deadIter := rfl
  nVars := rfl
  alpha := rfl
  eliteFactor := rfl
  parallel := rfl
  noise := rfl
  nonempty := by show 0 < 2; decide
  data := by
    intro d hd r hr
    simp only [Ex.slant, Option.some.injEq] at hd
    subst hd
    simp only [List.mem_cons, List.not_mem_nil, or_false] at hr
    rcases hr with rfl | rfl <;> rfl
  data' := by simp [Ex.slant, mirror, List.range_succ, Ex.second]

theorem Ex.slant_psd {s : ℝ} (hs : s = 1 ∨ s = -1) : PSD 2 (entry (Ex.slantCov s)) := by
  intro x
  simp only [Finset.sum_range_succ, Finset.range_zero, Finset.sum_empty]
  rcases hs with rfl | rfl
  · simp [entry, Ex.slantCov]
    nlinarith [sq_nonneg (x 0 + x 1)]
  · simp [entry, Ex.slantCov]
    nlinarith [sq_nonneg (x 0), sq_nonneg (x 1)]

theorem Ex.slant_gram {s : ℝ} (hs : s = 1 ∨ s = -1) {fac : List (List ℝ) → List (List ℝ)}
    (hfac : ∀ c, (∀ i < 2, ∀ j < 2, entry c i j = entry c j i) → PSD 2 (entry c) →
      IsSvdRoot 2 (entry c) (entry (fac c))) :
    ∀ i < 2, ∀ j < 2, ∑ k ∈ Finset.range 2, entry (fac (Ex.slantCov s)) k i * entry (fac (Ex.slantCov s)) k j =
      entry (Ex.slantCov s) i j := by
  have hsym : ∀ i < 2, ∀ j < 2, entry (Ex.slantCov s) i j = entry (Ex.slantCov s) j i := by
    intro i hi j hj
    have hi : i = 0 ∨ i = 1 := by omega
    have hj : j = 0 ∨ j = 1 := by omega
    rcases hi with rfl | rfl <;> rcases hj with rfl | rfl <;> simp [entry, Ex.slantCov]
  exact (svdRoot_gram_iff hsym (hfac _ hsym (Ex.slant_psd hs))).2 (Ex.slant_psd hs)

/-- Both individuals of the second generation lie on the other diagonal. -/
def Ex.antidiagonal : Set (Seen ℚ) :=
  {o | ∃ best cost k hist, ∃ log : List (List (List ℝ × ℚ)), o = .ok (best, cost, k, hist, log) ∧
    ∃ g : List (List ℝ × ℚ), log[1]? = some g ∧ ∀ y ∈ g, y.1.getD 0 0 = -y.1.getD 1 0}

/-- The draws in a box have positive probability. -/
theorem all_box (unif : Bool) (w : ℝ) (t : Fin 2 → ℝ) {M δ : ℝ} (hδ : 0 < δ) (hM : ∀ j, |t j| ≤ M) :
    MeasurableSet {d : Draws ℝ × Draws ℝ × (ℕ → Draws ℝ) | ∀ j : Fin 2, |d.2.2 1 0 j - t j| < δ} ∧
      0 < allDraws unif w {d | ∀ j : Fin 2, |d.2.2 1 0 j - t j| < δ} := by
  have hp : IsProbabilityMeasure (if unif then unif01 else gaussianReal 0 1) := by
    cases unif <;> simp <;> infer_instance
  have hq : IsProbabilityMeasure Spec.normalDraws :=
    inferInstanceAs (IsProbabilityMeasure (iidDraws (gaussianReal 0 1)))
  have hq' : IsProbabilityMeasure (eachGen Spec.normalDraws) := by unfold eachGen; infer_instance
  have hB : MeasurableSet {z : Draws ℝ | ∀ j : Fin 2, |z 0 j - t j| < δ} := by
    have : {z : Draws ℝ | ∀ j : Fin 2, |z 0 j - t j| < δ} = ⋂ j : Fin 2, {z : Draws ℝ | |z 0 j - t j| < δ} := by
      ext z; simp
    rw [this]
    refine MeasurableSet.iInter fun j => ?_
    exact measurableSet_lt (continuous_abs.measurable.comp (by fun_prop)) measurable_const
  have h1 : MeasurePreserving (fun z : ℕ → Draws ℝ => z 1) (eachGen Spec.normalDraws) Spec.normalDraws :=
    measurePreserving_eval_infinitePi (fun _ : ℕ => Spec.normalDraws) 1
  have h2 : MeasurePreserving (fun d : Draws ℝ × Draws ℝ × (ℕ → Draws ℝ) => d.2.2 1) (allDraws unif w)
      Spec.normalDraws := h1.comp (measurePreserving_snd.comp measurePreserving_snd)
  have h3 := h2.measure_preimage hB.nullMeasurableSet
  have h4 := normal_box (n := 2) (m := fun _ => 0) (s := fun _ => 1) (target := t) (M := M) (l := 1) (S := 1) one_pos hδ
    (fun _ => by simpa using (abs_nonneg _).trans (hM 0)) (fun _ => ⟨le_refl _, le_refl _⟩) hM
  have h5 : (fun d : Draws ℝ × Draws ℝ × (ℕ → Draws ℝ) => d.2.2 1) ⁻¹' {z : Draws ℝ | ∀ j : Fin 2, |z 0 j - t j| < δ} =
      {d | ∀ j : Fin 2, |d.2.2 1 0 j - t j| < δ} := rfl
  rw [← h5, h3]
  refine ⟨h2.measurable hB, lt_of_lt_of_le ?_ (by simpa using h4)⟩
  exact pos_iff_ne_zero.2 (pow_ne_zero _ (gaussLow_ne (by simpa using hδ)))

/-- **C97** is false for `EMNA` when one axis is reversed: the covariances are forced to be at least
`lower_factor`, so negative ones are lost.  Two individuals on the diagonal keep all later individuals on
the diagonal; the mirror image starts from two individuals on the other diagonal and leaves it with positive
probability (for every factorisation that `multivariate_normal` may use). -/
theorem C97_refuted {fac : List (List ℝ) → List (List ℝ)}
    (hfac : ∀ c, (∀ i < 2, ∀ j < 2, entry c i j = entry c j i) → PSD 2 (entry c) →
      IsSvdRoot 2 (entry c) (entry (fac c))) :
    ∃ (e e' : Eda (List ℝ) (MultiGauss ℝ) (Draws ℝ)) (b b' : MultiGauss ℝ),
      IsSigns 2 Ex.second ∧ MirrorBase Ex.second (Ex.slant 1).base (Ex.slant (-1)).base ∧
      EMNA id Real.sqrt fac (Ex.slant 1) = .ok (e, b) ∧ EMNA id Real.sqrt fac (Ex.slant (-1)) = .ok (e', b') ∧
      allDraws true 0 {d | moveSeen (mirror Ex.second 2)
        (seen (minimize Ex.env e (fun _ _ => 0) 0 b (drawn d))) ∈ Ex.antidiagonal} = 1 ∧
      allDraws true 0 {d | seen (minimize Ex.env e' (fun _ _ => 0) 0 b' (drawn d)) ∈ Ex.antidiagonal} < 1 := by
  obtain ⟨e, b, he⟩ := Ex.slant_ok fac 1
  obtain ⟨e', b', he'⟩ := Ex.slant_ok fac (-1)
  have hp : IsProbabilityMeasure (allDraws true 0) := by
    have hq : IsProbabilityMeasure Spec.normalDraws :=
      inferInstanceAs (IsProbabilityMeasure (iidDraws (gaussianReal 0 1)))
    have hq' : IsProbabilityMeasure (eachGen Spec.normalDraws) := by unfold eachGen; infer_instance
    unfold allDraws
    simp only [if_true]
    infer_instance
  refine ⟨e, e', b, b', ?_, Ex.slant_base, he, he', ?_, ?_⟩
  · intro j _
    unfold Ex.second
    split <;> simp
  · have : {d | moveSeen (mirror Ex.second 2)
        (seen (minimize Ex.env e (fun _ _ => 0) 0 b (drawn d))) ∈ Ex.antidiagonal} = Set.univ := by
      ext d
      simp only [Set.mem_univ, iff_true]
      obtain ⟨res, st, hr, hl⟩ := Ex.slant_run (.inl rfl) he (drawn d)
      have g := Ex.slant_gram (s := 1) (.inl rfl) hfac
      have g00 := g 0 (by decide) 0 (by decide)
      have g01 := g 0 (by decide) 1 (by decide)
      have g11 := g 1 (by decide) 1 (by decide)
      rw [Finset.sum_range_succ, Finset.sum_range_one] at g00 g01 g11
      have e00 : entry (Ex.slantCov 1) 0 0 = 1/2 := rfl
      have e01 : entry (Ex.slantCov 1) 0 1 = 1/2 := by simp [entry, Ex.slantCov]
      have e11 : entry (Ex.slantCov 1) 1 1 = 1/2 := rfl
      rw [e00] at g00
      rw [e01] at g01
      rw [e11] at g11
      simp only [Ex.slantRow] at hl
      generalize entry (fac (Ex.slantCov 1)) 0 0 = a at *
      generalize entry (fac (Ex.slantCov 1)) 1 0 = a' at *
      generalize entry (fac (Ex.slantCov 1)) 0 1 = c at *
      generalize entry (fac (Ex.slantCov 1)) 1 1 = c' at *
      have h0 : (a - c) * (a - c) + (a' - c') * (a' - c') = 0 := by linarith
      have h1 : a = c := by nlinarith [mul_self_nonneg (a - c), mul_self_nonneg (a' - c')]
      have h2 : a' = c' := by nlinarith [mul_self_nonneg (a - c), mul_self_nonneg (a' - c')]
      subst h1 h2
      rw [Set.mem_ofPred_eq, hr]
      refine ⟨_, _, _, _, _, rfl, ?_⟩
      simp only [hl]
      refine ⟨_, rfl, ?_⟩
      intro y hy
      simp only [List.map_cons, List.map_nil, List.mem_cons, List.not_mem_nil, or_false] at hy
      rcases hy with rfl | rfl <;> simp [mirror, List.range_succ, Ex.second]
    rw [this, measure_univ]
  · have g := Ex.slant_gram (s := -1) (.inr rfl) hfac
    have g00 := g 0 (by decide) 0 (by decide)
    have g01 := g 0 (by decide) 1 (by decide)
    have g11 := g 1 (by decide) 1 (by decide)
    rw [Finset.sum_range_succ, Finset.sum_range_one] at g00 g01 g11
    have e00 : entry (Ex.slantCov (-1)) 0 0 = 1/2 := rfl
    have e01 : entry (Ex.slantCov (-1)) 0 1 = 0 := by simp [entry, Ex.slantCov]
    have e11 : entry (Ex.slantCov (-1)) 1 1 = 1/2 := rfl
    rw [e00] at g00
    rw [e01] at g01
    rw [e11] at g11
    have hrun := fun d => Ex.slant_run (.inr rfl) he' (drawn d)
    simp only [Ex.slantRow] at hrun
    generalize entry (fac (Ex.slantCov (-1))) 0 0 = a at *
    generalize entry (fac (Ex.slantCov (-1))) 1 0 = a' at *
    generalize entry (fac (Ex.slantCov (-1))) 0 1 = c at *
    generalize entry (fac (Ex.slantCov (-1))) 1 1 = c' at *
    have hv : (a + c) * (a + c) + (a' + c') * (a' + c') = 1 := by linarith
    have hv0 : |a + c| ≤ 1 := by rw [abs_le]; constructor <;> nlinarith [mul_self_nonneg (a' + c')]
    have hv1 : |a' + c'| ≤ 1 := by rw [abs_le]; constructor <;> nlinarith [mul_self_nonneg (a + c)]
    obtain ⟨hB, hpos⟩ := all_box true 0 ![a + c, a' + c'] (M := 1) (δ := 1/4) (by norm_num)
      (by intro j; fin_cases j <;> simpa)
    refine lt_of_le_of_lt (measure_mono (t := {d | ∀ j : Fin 2, |d.2.2 1 0 j - ![a + c, a' + c'] j| < 1/4}ᶜ) ?_) ?_
    · intro d hd hbox
      obtain ⟨res, st, hr, hl⟩ := hrun d
      simp only [Set.mem_ofPred_eq] at hd
      rw [hr] at hd
      obtain ⟨_, _, _, _, log, hx, g, hg, hy⟩ := hd
      simp only [seen, Except.map, Except.ok.injEq, Prod.mk.injEq] at hx
      obtain ⟨_, _, _, _, rfl⟩ := hx
      simp only [hl, List.getElem?_cons_succ, List.getElem?_cons_zero, Option.some.injEq] at hg
      subst hg
      have := hy _ (List.mem_cons_self ..)
      simp only [List.getD_cons_zero, List.getD_cons_succ] at this
      have b0 := hbox 0
      have b1 := hbox 1
      simp only [drawn] at this
      simp only [Matrix.cons_val_zero, Matrix.cons_val_one, Fin.val_zero, Fin.val_one] at b0 b1
      generalize d.2.2 1 0 0 = z at *
      generalize d.2.2 1 0 1 = z' at *
      have k0 : z * (a + c) + z' * (a' + c') = 0 := by linarith
      have k1 : -(1/4) ≤ (z - (a + c)) * (a + c) := by
        have : |(z - (a + c)) * (a + c)| ≤ 1/4 * 1 := by
          rw [abs_mul]; exact mul_le_mul b0.le hv0 (abs_nonneg _) (by norm_num)
        linarith [(abs_le.1 this).1]
      have k2 : -(1/4) ≤ (z' - (a' + c')) * (a' + c') := by
        have : |(z' - (a' + c')) * (a' + c')| ≤ 1/4 * 1 := by
          rw [abs_mul]; exact mul_le_mul b1.le hv1 (abs_nonneg _) (by norm_num)
        linarith [(abs_le.1 this).1]
      nlinarith
    · rw [prob_compl_eq_one_sub hB]
      exact ENNReal.sub_lt_self ENNReal.one_ne_top one_ne_zero hpos.ne'

/-- Factorisations as required by `C97_refuted` exist. -/
example : ∃ fac : List (List ℝ) → List (List ℝ), ∀ c, (∀ i < 2, ∀ j < 2, entry c i j = entry c j i) →
    PSD 2 (entry c) → IsSvdRoot 2 (entry c) (entry (fac c)) := svdRoots_exist 2

/-! ### Examples -/

/-- A box that is not symmetric, and its mirror image (second axis reversed). -/
noncomputable def Ex.lop (l u : ℝ) : UMDAcCfg ℝ :=
  { Ex.boxCfg 1 0 with lower := .list [0, l], upper := .array [10, u] }

theorem Ex.lop_mirror : MirrorCont Ex.second (Ex.lop (-5) 7) (Ex.lop (-7) 5) where
  base := ⟨rfl, rfl, rfl, rfl, rfl, rfl, rfl, rfl, by show 0 < 2; decide,
    by intro d hd; simp [Ex.lop, Ex.boxCfg] at hd, rfl⟩
  factor := rfl
  start := by
    right; right
    refine ⟨rfl, rfl, fun j => if j = 0 then 0 else -5, fun j => if j = 0 then 10 else 7, ?_, ?_, ?_, ?_⟩
    · refine .list _ rfl ?_
      intro j hj
      have : j = 0 ∨ j = 1 := by simp only [Ex.lop, Ex.boxCfg] at hj; omega
      rcases this with rfl | rfl <;> simp
    · refine .array _ rfl ?_
      intro j hj
      have : j = 0 ∨ j = 1 := by simp only [Ex.lop, Ex.boxCfg] at hj; omega
      rcases this with rfl | rfl <;> simp
    · refine .list _ rfl ?_
      intro j hj
      have : j = 0 ∨ j = 1 := by simp only [Ex.lop, Ex.boxCfg] at hj; omega
      rcases this with rfl | rfl <;> norm_num [Ex.second]
    · refine .array _ rfl ?_
      intro j hj
      have : j = 0 ∨ j = 1 := by simp only [Ex.lop, Ex.boxCfg] at hj; omega
      rcases this with rfl | rfl <;> norm_num [Ex.second]

theorem Ex.lop_ok (l u : ℝ) : (∃ e b, UMDAc id Real.sqrt (Ex.lop l u) = .ok (e, b)) ∧
    ∃ e b, PBIL id Real.sqrt (Ex.lop l u) = .ok (e, b) := by
  have hd : (Ex.lop l u).base.deadIter ≤ (Ex.lop l u).base.maxIter := by
    show (3 : ℤ) ≤ 5; decide
  have hi : ∃ x, contInit (Ex.lop l u) = .ok x := ⟨_, rfl⟩
  obtain ⟨e, he⟩ := mkCont_isOk (fl := id) (base := (Ex.lop l u).base) (cfg := Ex.lop l u)
    (learn := fun b g _ _ => b.learn Real.sqrt g) hd (by intro d hd; simp [Ex.lop, Ex.boxCfg] at hd) hi
  obtain ⟨e', he'⟩ := mkCont_isOk (fl := id) (base := { (Ex.lop l u).base with alpha := 1 })
    (cfg := Ex.lop l u) (learn := fun b g _ _ => b.learnAdapt Real.sqrt (Ex.lop l u).base.alpha g)
    hd (by intro d hd; simp [Ex.lop, Ex.boxCfg] at hd) hi
  exact ⟨⟨e, _, he⟩, e', _, he'⟩

theorem Ex.second_signs (n : ℕ) : IsSigns n Ex.second := by
  intro j _; unfold Ex.second; split <;> simp

/-- Reversing twice changes nothing. -/
theorem Ex.mirror_twice {r : List ℝ} (hr : r.length = 2) : mirror Ex.second 2 (mirror Ex.second 2 r) = r := by
  obtain ⟨x, y, rfl⟩ : ∃ x y, r = [x, y] := by
    match r, hr with
    | [x, y], _ => exact ⟨x, y, rfl⟩
  simp [mirror, List.range_succ, Ex.second]

/-- Any cost function on `[0, 10] × [-5, 7]`, and the same with the second axis reversed, on `[0, 10] × [-7, 5]`,
with noise of deviation 3. -/
example (f : ℕ → List ℝ → ℚ) : ∃ e b e' b',
    UMDAc id Real.sqrt (Ex.lop (-5) 7) = .ok (e, b) ∧ UMDAc id Real.sqrt (Ex.lop (-7) 5) = .ok (e', b') ∧
    ∀ Q : Set (Seen ℚ), allDraws true 3 {d | seen (minimize Ex.env e' (fun k r => f k (mirror Ex.second 2 r)) 0 b' (drawn d)) ∈ Q} =
      allDraws true 3 {d | moveSeen (mirror Ex.second 2) (seen (minimize Ex.env e f 0 b (drawn d))) ∈ Q} := by
  obtain ⟨e, b, h⟩ := (Ex.lop_ok (-5) 7).1
  obtain ⟨e', b', h'⟩ := (Ex.lop_ok (-7) 5).1
  exact ⟨e, b, e', b', h, h', C97_UMDAc_law_partial (f := f)
    (f' := fun k r => f k (mirror Ex.second 2 r)) Ex.env_valid (Ex.second_signs _) Ex.lop_mirror h h'
    (fun k r hr => congrArg (f k) (Ex.mirror_twice hr)) 3⟩

example (f : ℕ → List ℝ → ℚ) : ∃ e b e' b',
    PBIL id Real.sqrt (Ex.lop (-5) 7) = .ok (e, b) ∧ PBIL id Real.sqrt (Ex.lop (-7) 5) = .ok (e', b') ∧
    ∀ Q : Set (Seen ℚ), allDraws true 3 {d | seen (minimize Ex.env e' (fun k r => f k (mirror Ex.second 2 r)) 0 b' (drawn d)) ∈ Q} =
      allDraws true 3 {d | moveSeen (mirror Ex.second 2) (seen (minimize Ex.env e f 0 b (drawn d))) ∈ Q} := by
  obtain ⟨e, b, h⟩ := (Ex.lop_ok (-5) 7).2
  obtain ⟨e', b', h'⟩ := (Ex.lop_ok (-7) 5).2
  exact ⟨e, b, e', b', h, h', C97_PBIL_law_partial (f := f)
    (f' := fun k r => f k (mirror Ex.second 2 r)) Ex.env_valid (Ex.second_signs _) Ex.lop_mirror h h'
    (fun k r hr => congrArg (f k) (Ex.mirror_twice hr)) 3⟩

/-- `EMNA` on the two individuals of the refutation, reflected through the origin. -/
example (fac : List (List ℝ) → List (List ℝ)) : ∃ e b, EMNA id Real.sqrt fac (Ex.slant 1) = .ok (e, b) ∧
    ∃ cfg', MirrorBase (fun _ => -1) (Ex.slant 1).base cfg'.base ∧ ∃ e' b', EMNA id Real.sqrt fac cfg' = .ok (e', b') ∧
    ∀ Q : Set (Seen ℚ), allDraws true 0 {d | seen (minimize Ex.env e' (fun _ _ => 0) 0 b' (drawn d)) ∈ Q} =
      allDraws true 0 {d | moveSeen (mirror (fun _ => -1) 2) (seen (minimize Ex.env e (fun _ _ => 0) 0 b (drawn d))) ∈ Q} := by
  obtain ⟨e, b, h⟩ := Ex.slant_ok fac 1
  let cfg' : EMNACfg ℝ := { Ex.slant 1 with base := { (Ex.slant 1).base with
    initData := some { dt := .float, cols := 2, rows := [[-1 * (1/2), -1 * (1/2)], [-1 * (-1/2), -1 * (-1/2)]] } } }
  have hb : MirrorBase (fun _ => -1) (Ex.slant 1).base cfg'.base := by
    refine ⟨rfl, rfl, rfl, rfl, rfl, rfl, rfl, rfl, by show 0 < 2; decide, Ex.slant_base.data, ?_⟩
    simp [cfg', Ex.slant, mirror, List.range_succ]
  obtain ⟨e', h'⟩ := EMNA_isOk (fl := id) (sq := Real.sqrt) (fac := fac) (cfg := cfg')
    (le_refl _) (by intro d hd; simp only [cfg', Option.some.injEq] at hd; subst hd; rfl)
    ⟨_, rfl⟩
  exact ⟨e, b, h, cfg', hb, e', _, h', C97_EMNA_law_partial Ex.env_valid (.inr rfl) hb rfl rfl
    (.inl (by simp [Ex.slant])) h h' (fun _ _ _ => rfl) 0⟩

end Verif
