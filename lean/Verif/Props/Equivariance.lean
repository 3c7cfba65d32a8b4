/-
C68, C69 and C70: changes of the coordinates of the search space.
-/
import Verif.Lemmas.Equivariance
import Verif.Props.MultiGauss
import Verif.Props.Continuous

namespace Verif

open Spec

variable {K C : Type} [Field K] [LinearOrder K] [IsStrictOrderedRing K] [FloorRing K] [PyCost C]
variable {fl sq : K → K} {c : K} {a : ℕ → K} {π : ℕ → ℕ} {env : Env C} {ftol : C}
variable {f f' : ℕ → List K → C} {ρ ρ' : Rand (Draws K)}

/-- **C68** (`UMDAc`): translating the bounds, the initial means or the initial data, and the cost
function, by `a` translates the run, draw by draw (exact arithmetic). -/
theorem C68_UMDAc (hv : env.Valid) (hsq : IsSqrt sq) {cfg cfg' : UMDAcCfg K}
    (h : SameCont 1 a id cfg cfg') {e e' : Eda (List K) (UniGauss K) (Draws K)} {b b' : UniGauss K}
    (he : UMDAc id sq cfg = .ok (e, b)) (he' : UMDAc id sq cfg' = .ok (e', b'))
    (hρ : SameRand 1 id cfg'.base.nVars ρ ρ')
    (hf : ∀ k r, r.length = cfg.base.nVars → f' k (recoord 1 a id cfg'.base.nVars r) = f k r) :
    Image (recoord 1 a id cfg'.base.nVars)
      (minimize env e f ftol b ρ) (minimize env e' f' ftol b' ρ') := by
  obtain ⟨h1, h2⟩ := UMDAc_sim (flMoves_id 1 a) one_pos hsq h he he' hρ
  exact image_of_sim (minimize_sim hv h1 (fun k r r' hr => by rw [hr.2]; exact hf k r hr.1) h2)

/-- **C68** (`PBIL`). -/
theorem C68_PBIL (hv : env.Valid) (hsq : IsSqrt sq) {cfg cfg' : UMDAcCfg K}
    (h : SameCont 1 a id cfg cfg') {e e' : Eda (List K) (UniGauss K) (Draws K)} {b b' : UniGauss K}
    (he : PBIL id sq cfg = .ok (e, b)) (he' : PBIL id sq cfg' = .ok (e', b'))
    (hρ : SameRand 1 id cfg'.base.nVars ρ ρ')
    (hf : ∀ k r, r.length = cfg.base.nVars → f' k (recoord 1 a id cfg'.base.nVars r) = f k r) :
    Image (recoord 1 a id cfg'.base.nVars)
      (minimize env e f ftol b ρ) (minimize env e' f' ftol b' ρ') := by
  obtain ⟨h1, h2⟩ := PBIL_sim (flMoves_id 1 a) one_pos hsq h he he' hρ
  exact image_of_sim (minimize_sim hv h1 (fun k r r' hr => by rw [hr.2]; exact hf k r hr.1) h2)

/-- **C68** (`EMNA`, whatever factorisation `multivariate_normal` uses). -/
theorem C68_EMNA {fac : List (List K) → List (List K)} (hv : env.Valid) (hsq : IsSqrt sq)
    {cfg cfg' : EMNACfg K} (hb : SameBase 1 a id cfg.base cfg'.base)
    (hn : cfg'.base.nVars = cfg.base.nVars) (hl : cfg'.lowerFactor = cfg.lowerFactor)
    (hu : cfg'.upperFactor = cfg.upperFactor)
    (hbd : cfg.base.initData ≠ none ∨ SameBounds 1 a id cfg.base.nVars cfg.base.nVars
      cfg.lower cfg.upper cfg'.lower cfg'.upper)
    {e e' : Eda (List K) (MultiGauss K) (Draws K)} {b b' : MultiGauss K}
    (he : EMNA id sq fac cfg = .ok (e, b)) (he' : EMNA id sq fac cfg' = .ok (e', b'))
    (hρ : SameRand 1 id cfg.base.nVars ρ ρ')
    (hf : ∀ k r, r.length = cfg.base.nVars → f' k (recoord 1 a id cfg.base.nVars r) = f k r) :
    Image (recoord 1 a id cfg.base.nVars)
      (minimize env e f ftol b ρ) (minimize env e' f' ftol b' ρ') := by
  obtain ⟨h1, h2⟩ := EMNA_sim hsq hb hn hl hu hbd he he' hρ
  exact image_of_sim (minimize_sim hv h1 (fun k r r' hr => by rw [hr.2]; exact hf k r hr.1) h2)

/-- **C69** (`UMDAc`): measuring all variables in other units (bounds, initial means and deviations,
initial data, minimal deviation and noise multiplied by `c > 0`) changes the run only by these units
(exact arithmetic). -/
theorem C69_UMDAc_partial (hv : env.Valid) (hsq : IsSqrt sq) (hc : 0 < c) {cfg cfg' : UMDAcCfg K}
    (h : SameCont c 0 id cfg cfg') {e e' : Eda (List K) (UniGauss K) (Draws K)} {b b' : UniGauss K}
    (he : UMDAc id sq cfg = .ok (e, b)) (he' : UMDAc id sq cfg' = .ok (e', b'))
    (hρ : SameRand c id cfg'.base.nVars ρ ρ')
    (hf : ∀ k r, r.length = cfg.base.nVars → f' k (recoord c 0 id cfg'.base.nVars r) = f k r) :
    Image (recoord c 0 id cfg'.base.nVars)
      (minimize env e f ftol b ρ) (minimize env e' f' ftol b' ρ') := by
  obtain ⟨h1, h2⟩ := UMDAc_sim (flMoves_id c 0) hc hsq h he he' hρ
  exact image_of_sim (minimize_sim hv h1 (fun k r r' hr => by rw [hr.2]; exact hf k r hr.1) h2)

/-- **C69** (`PBIL`). -/
theorem C69_PBIL_partial (hv : env.Valid) (hsq : IsSqrt sq) (hc : 0 < c) {cfg cfg' : UMDAcCfg K}
    (h : SameCont c 0 id cfg cfg') {e e' : Eda (List K) (UniGauss K) (Draws K)} {b b' : UniGauss K}
    (he : PBIL id sq cfg = .ok (e, b)) (he' : PBIL id sq cfg' = .ok (e', b'))
    (hρ : SameRand c id cfg'.base.nVars ρ ρ')
    (hf : ∀ k r, r.length = cfg.base.nVars → f' k (recoord c 0 id cfg'.base.nVars r) = f k r) :
    Image (recoord c 0 id cfg'.base.nVars)
      (minimize env e f ftol b ρ) (minimize env e' f' ftol b' ρ') := by
  obtain ⟨h1, h2⟩ := PBIL_sim (flMoves_id c 0) hc hsq h he he' hρ
  exact image_of_sim (minimize_sim hv h1 (fun k r r' hr => by rw [hr.2]; exact hf k r hr.1) h2)

/-- **C70** (`UMDAc`, any rounding): reordering or duplicating the variables, or leaving out variables
the cost function does not depend on, does not influence the others: variable `j` of the second run does
what variable `π j` does in the first, draw by draw. -/
theorem C70_UMDAc (hv : env.Valid) (hsq : IsSqrt sq) {cfg cfg' : UMDAcCfg K}
    (h : SameCont 1 0 π cfg cfg') {e e' : Eda (List K) (UniGauss K) (Draws K)} {b b' : UniGauss K}
    (he : UMDAc fl sq cfg = .ok (e, b)) (he' : UMDAc fl sq cfg' = .ok (e', b'))
    (hρ : SameRand 1 π cfg'.base.nVars ρ ρ')
    (hf : ∀ k r, r.length = cfg.base.nVars → f' k (recoord 1 0 π cfg'.base.nVars r) = f k r) :
    Image (recoord 1 0 π cfg'.base.nVars)
      (minimize env e f ftol b ρ) (minimize env e' f' ftol b' ρ') := by
  obtain ⟨h1, h2⟩ := UMDAc_sim (flMoves_one fl) one_pos hsq h he he' hρ
  exact image_of_sim (minimize_sim hv h1 (fun k r r' hr => by rw [hr.2]; exact hf k r hr.1) h2)

/-- **C70** (`PBIL`, any rounding). -/
theorem C70_PBIL (hv : env.Valid) (hsq : IsSqrt sq) {cfg cfg' : UMDAcCfg K}
    (h : SameCont 1 0 π cfg cfg') {e e' : Eda (List K) (UniGauss K) (Draws K)} {b b' : UniGauss K}
    (he : PBIL fl sq cfg = .ok (e, b)) (he' : PBIL fl sq cfg' = .ok (e', b'))
    (hρ : SameRand 1 π cfg'.base.nVars ρ ρ')
    (hf : ∀ k r, r.length = cfg.base.nVars → f' k (recoord 1 0 π cfg'.base.nVars r) = f k r) :
    Image (recoord 1 0 π cfg'.base.nVars)
      (minimize env e f ftol b ρ) (minimize env e' f' ftol b' ρ') := by
  obtain ⟨h1, h2⟩ := PBIL_sim (flMoves_one fl) one_pos hsq h he he' hρ
  exact image_of_sim (minimize_sim hv h1 (fun k r r' hr => by rw [hr.2]; exact hf k r hr.1) h2)

/-- **C70** (`UMDAd`, any rounding). -/
theorem C70_UMDAd (hv : env.Valid) {cfg cfg' : UMDAdCfg K} (hb : SameBase 1 0 π cfg.base cfg'.base)
    (hl : cfg'.lower = cfg.lower) (hu : cfg'.upper = cfg.upper)
    (hvec : ∀ v, cfg.vector = some v → v.length = cfg.base.nVars)
    (hvec' : cfg'.vector = cfg.vector.map (recoord 1 0 π cfg'.base.nVars))
    {e e' : Eda (List K) (UniBin K) (Draws K)} {b b' : UniBin K}
    (he : UMDAd fl cfg = .ok (e, b)) (he' : UMDAd fl cfg' = .ok (e', b'))
    (hρ : SameRand 1 π cfg'.base.nVars ρ ρ')
    (hf : ∀ k r, r.length = cfg.base.nVars → f' k (recoord 1 0 π cfg'.base.nVars r) = f k r) :
    Image (recoord 1 0 π cfg'.base.nVars)
      (minimize env e f ftol b ρ) (minimize env e' f' ftol b' ρ') := by
  obtain ⟨h1, h2⟩ := UMDAd_sim hb hl hu hvec hvec' he he' hρ
  exact image_of_sim (minimize_sim hv h1 (fun k r r' hr => by rw [hr.2]; exact hf k r hr.1) h2)

/-! ### Units in `EMNA` -/

/-- `EMNA` started from two individuals that differ by `2 * c` in the first variable. -/
noncomputable def Ex.unitCfg (c : ℝ) : EMNACfg ℝ :=
  { base := { sizeGen := 2, maxIter := 2, deadIter := 2, nVars := 2, alpha := 1, eliteFactor := 0,
              parallel := false, wNoise := none,
              initData := some { dt := .float, cols := 2, rows := [[0, 0], [c * 2, 0]] } }
    lower := .scalar 0, upper := .scalar 0, lowerFactor := 0, upperFactor := c * c * 100 }

/-- A factorisation for diagonal matrices (the only ones that occur): square roots on the diagonal. -/
noncomputable def Ex.diagFac (m : List (List ℝ)) : List (List ℝ) :=
  [[Real.sqrt (entry m 0 0), 0], [0, Real.sqrt (entry m 1 1)]]

def Ex.ones : Rand (Draws ℝ) :=
  { init := fun _ _ => 1, noise := fun _ _ => 0, learn := fun _ _ _ => 1, sample := fun _ _ _ => 1 }

theorem Ex.unit_ok (c : ℝ) : ∃ e b, EMNA id Real.sqrt Ex.diagFac (Ex.unitCfg c) = .ok (e, b) := by
  obtain ⟨e, h⟩ := EMNA_isOk (fl := id) (sq := Real.sqrt) (fac := Ex.diagFac) (cfg := Ex.unitCfg c)
    (le_refl _) (by intro d hd; simp only [Ex.unitCfg, Option.some.injEq] at hd; subst hd; rfl)
    ⟨_, rfl⟩
  exact ⟨e, _, h⟩

theorem Ex.unit_run {c : ℝ} (hc : 0 < c) {e : Eda (List ℝ) (MultiGauss ℝ) (Draws ℝ)}
    {b : MultiGauss ℝ} (h : EMNA id Real.sqrt Ex.diagFac (Ex.unitCfg c) = .ok (e, b)) :
    ∃ res s, minimize Ex.env e (fun _ _ => 0) 0 b Ex.ones = .ok (res, s) ∧
      s.log.map (List.map Prod.fst) = [[[0, 0], [c * 2, 0]],
        [[c + Real.sqrt c, 0], [c + Real.sqrt c, 0]]] := by
  obtain ⟨h1, _, rfl⟩ := EMNA_ok h
  have hm := mkEda_ok h1
  have hmax : e.maxIter = 2 := hm.maxIter
  have hpar : e.parallel = false := hm.parallel
  have ht : e.truncLen = 2 := by
    rw [hm.truncLen]; simp [selLen, Ex.unitCfg, pyInt, Num.truncZ]
  have hel : e.eliteLen = 0 := by
    rw [hm.eliteLen]; simp [selLen, Ex.unitCfg, pyInt, Num.truncZ]
  have hi := (hm.initSome _ rfl).2
  have hn := hm.mkNoise Ex.ones.noise
  simp only [BaseCfg.noiseAttr, mkWhiteNoise, Ex.unitCfg] at hn
  have hstart : start Ex.env e (fun _ _ => (0 : ℚ)) (MultiGauss.new 2 0 (c * c * 100)) Ex.ones = .ok
      { gen := ⟨.float, 2, [[0, 0], [c * 2, 0]]⟩, evals := [0, 0], elite := ⟨.float, 2, [[0, 0]]⟩,
        evalsElite := [0], bestCost := 0, bestInd := .index 0, pm := MultiGauss.new 2 0 (c * c * 100),
        history := [0], notBetter := 0, log := [[([0, 0], 0), ([c * 2, 0], 0)]] } := by
    unfold start
    rw [hi, hpar]
    rfl
  have hlearn : (MultiGauss.new 2 0 (c * c * 100)).learn Real.sqrt ⟨.float, 2, [[0, 0], [c * 2, 0]]⟩ =
      .ok ⟨2, 0, c * c * 100, [c, 0], [[c, 0], [0, 0]]⟩ := by
    have hcc : 0 < c * c * 100 := by positivity
    unfold MultiGauss.learn
    rw [if_neg (by simp [MultiGauss.new]), if_neg (by simp), if_neg (by simp)]
    simp [MultiGauss.new, List.range_succ, colMean, colStd, covEntry, clampEntry, hcc.le]
    rw [show c * c + (c * 2 - c) * (c * 2 - c) = c * c * 2 by ring, Real.sqrt_mul (by positivity),
      Real.sqrt_mul_self hc.le]
    field_simp
  have hsample : MultiGauss.sample Ex.diagFac ⟨2, 0, c * c * 100, [c, 0], [[c, 0], [0, 0]]⟩ 2
      (Ex.ones.sample 1) = .ok ⟨.float, 2, [[c + Real.sqrt c, 0], [c + Real.sqrt c, 0]]⟩ := by
    unfold MultiGauss.sample
    simp [List.range_succ, Ex.diagFac, entry, Ex.ones]
  have htr : truncation Ex.env e
      { gen := ⟨.float, 2, [[0, 0], [c * 2, 0]]⟩, evals := [(0 : ℚ), 0], elite := ⟨.float, 2, [[0, 0]]⟩,
        evalsElite := [0], bestCost := 0, bestInd := .index 0, pm := MultiGauss.new 2 0 (c * c * 100),
        history := [0], notBetter := 0, log := [[([0, 0], 0), ([c * 2, 0], 0)]] } = .ok
      { gen := ⟨.float, 2, [[0, 0], [c * 2, 0]]⟩, evals := [0, 0], elite := ⟨.float, 2, []⟩,
        evalsElite := [], bestCost := 0, bestInd := .index 0, pm := MultiGauss.new 2 0 (c * c * 100),
        history := [0], notBetter := 0, log := [[([0, 0], 0), ([c * 2, 0], 0)]] } := by
    unfold truncation
    rw [ht, hel]
    have ha : Ex.env.argsort [(0 : ℚ), 0, 0] = [0, 1, 2] := by decide +kernel
    simp only [Gen.concat, if_true, List.cons_append, List.nil_append, ha]
    rfl
  have hstep : ∃ s' brk, step Ex.env e (fun _ _ => (0 : ℚ)) 0 Ex.ones (addNoise .zero) 1
      { gen := ⟨.float, 2, [[0, 0], [c * 2, 0]]⟩, evals := [(0 : ℚ), 0], elite := ⟨.float, 2, [[0, 0]]⟩,
        evalsElite := [0], bestCost := 0, bestInd := .index 0, pm := MultiGauss.new 2 0 (c * c * 100),
        history := [0], notBetter := 0, log := [[([0, 0], 0), ([c * 2, 0], 0)]] } = .ok (s', brk) ∧
      s'.log.map (List.map Prod.fst) = [[[0, 0], [c * 2, 0]],
        [[c + Real.sqrt c, 0], [c + Real.sqrt c, 0]]] := by
    unfold step
    rw [htr]
    simp only [addNoise, hm.updatePm, hm.sample, hlearn]
    have : (Ex.unitCfg c).base.sizeGen = 2 := rfl
    rw [this, hsample, hpar]
    have h0 : PyCost.lt (0 : ℚ) (PyCost.mulTol 0 0) = false := by decide +kernel
    refine ⟨?_, ?_, ?_, ?_⟩
    · exact
        { gen := ⟨.float, 2, [[c + Real.sqrt c, 0], [c + Real.sqrt c, 0]]⟩, evals := [0, 0],
          elite := ⟨.float, 2, []⟩, evalsElite := [], bestCost := 0, bestInd := .index 0,
          pm := ⟨2, 0, c * c * 100, [c, 0], [[c, 0], [0, 0]]⟩, history := [0, 0], notBetter := 1,
          log := [[([0, 0], 0), ([c * 2, 0], 0)],
            [([c + Real.sqrt c, 0], 0), ([c + Real.sqrt c, 0], 0)]] }
    · exact decide ((0 : ℤ) + 1 = e.deadIter)
    · have hcg : checkGeneration Ex.env false (fun (_ : ℕ) (_ : List ℝ) => (0 : ℚ)) 2
          [[c + Real.sqrt c, 0], [c + Real.sqrt c, 0]] = .ok
          ⟨[([c + Real.sqrt c, 0], 0), ([c + Real.sqrt c, 0], 0)], [0, 0]⟩ := rfl
      have hp : pyMin [(0 : ℚ), 0] = some 0 := by decide +kernel
      have hw : whereFirst [(0 : ℚ), 0] 0 = some 0 := by decide +kernel
      have hl : [[([(0 : ℝ), 0], (0 : ℚ)), ([c * 2, 0], 0)]].flatten.length = 2 := rfl
      simp only [hl, hcg, hp, hw, h0]
      rfl
    · rfl
  obtain ⟨s', brk, hs, hl⟩ := hstep
  have hb : MultiGauss.new (Ex.unitCfg c).base.nVars (Ex.unitCfg c).lowerFactor
      (Ex.unitCfg c).upperFactor = MultiGauss.new 2 0 (c * c * 100) := rfl
  rw [hb]
  unfold minimize
  rw [hstart, hn, hmax]
  refine ⟨⟨s'.bestInd, s'.bestCost, s'.history.length * e.sizeGen, s'.history⟩, s', ?_, hl⟩
  simp only [if_true]
  have : ((2 : ℤ) - 1).toNat = 1 := by decide
  rw [this]
  unfold loop
  rw [hs]
  cases brk <;> rfl

/-- **C69** is false for `EMNA`: the diagonal of the covariance matrix holds deviations instead of
variances, so after multiplying all lengths by 4 the sampled deviations are only multiplied by 2. -/
theorem C69_refuted : ∃ (e e' : Eda (List ℝ) (MultiGauss ℝ) (Draws ℝ)) (b b' : MultiGauss ℝ),
    SameBase 4 0 id (Ex.unitCfg 1).base (Ex.unitCfg 4).base ∧
    EMNA id Real.sqrt Ex.diagFac (Ex.unitCfg 1) = .ok (e, b) ∧
    EMNA id Real.sqrt Ex.diagFac (Ex.unitCfg 4) = .ok (e', b') ∧
    SameRand 4 id 2 Ex.ones Ex.ones ∧
    (∀ x y : ℝ, 0 ≤ x → 0 ≤ y → Ex.diagFac [[x * x, 0], [0, y * y]] = [[x, 0], [0, y]]) ∧
    ¬ Image (recoord 4 0 id 2) (minimize Ex.env e (fun _ _ => 0) 0 b Ex.ones)
      (minimize Ex.env e' (fun _ _ => 0) 0 b' Ex.ones) := by
  obtain ⟨e, b, h⟩ := Ex.unit_ok 1
  obtain ⟨e', b', h'⟩ := Ex.unit_ok 4
  refine ⟨e, e', b, b', ?_, h, h', ?_, ?_, ?_⟩
  · refine ⟨rfl, rfl, rfl, rfl, rfl, rfl, rfl, by simp [Ex.unitCfg], fun j hj => hj, by decide, ?_, ?_⟩
    · intro d hd r hr
      simp only [Ex.unitCfg, Option.some.injEq] at hd
      subst hd
      simp at hr
      rcases hr with rfl | rfl <;> rfl
    · simp [Ex.unitCfg, recoord, List.range_succ]
  · refine ⟨?_, ?_, ?_, ?_⟩ <;> intros <;> simp [Ex.ones, SameDraws]
  · intro x y hx hy
    simp [Ex.diagFac, entry, Real.sqrt_mul_self hx, Real.sqrt_mul_self hy]
  · obtain ⟨res, s, hr, hl⟩ := Ex.unit_run one_pos h
    obtain ⟨res', s', hr', hl'⟩ := Ex.unit_run (by norm_num) h'
    rw [hr, hr']
    rintro ⟨_, _, _, _, hlog⟩
    have : s'.log.map (List.map Prod.fst) =
        (s.log.map (List.map Prod.fst)).map (List.map (recoord 4 0 id 2)) := by
      rw [hlog]
      simp [Function.comp_def]
    rw [hl, hl'] at this
    have h4 : Real.sqrt 4 = 2 := by
      rw [show (4 : ℝ) = 2 * 2 by norm_num, Real.sqrt_mul_self (by norm_num)]
    simp [recoord, List.range_succ, h4] at this
    norm_num at this

omit [FloorRing K] in
/-- **C69** what happens to the model of `EMNA`: means and diagonal scale like lengths, the other
entries like areas. -/
theorem C69_EMNA_learn (hsq : IsSqrt sq) (hc : 0 < c) {b : MultiGauss K} {g : Gen (List K)}
    (hcols : g.cols = b.n) (h2 : 2 ≤ b.n) (hr : 2 ≤ g.rows.length) :
    ∃ b1 b2, b.learn sq g = .ok b1 ∧
      MultiGauss.learn sq { b with lb := c * c * b.lb, ub := c * c * b.ub }
        { g with rows := g.rows.map (recoord c 0 id b.n) } = .ok b2 ∧
      (∀ j < b.n, b2.means.getD j 0 = c * b1.means.getD j 0) ∧
      (∀ i < b.n, entry b2.cov i i = c * entry b1.cov i i) ∧
      (∀ i < b.n, ∀ j < b.n, i ≠ j → entry b2.cov i j = c * c * entry b1.cov i j) := by
  have hne : g.rows ≠ [] := by intro h; rw [h] at hr; simp at hr
  refine ⟨_, _, MultiGauss.learn_eq hcols.symm h2 hr, MultiGauss.learn_eq
    (b := { b with lb := c * c * b.lb, ub := c * c * b.ub })
    (g := { g with rows := g.rows.map (recoord c 0 id b.n) }) hcols.symm h2 (by simpa using hr), ?_, ?_, ?_⟩
  · intro j hj
    simp only
    rw [getD_range_map hj, getD_range_map hj, colMean_recoord hne hj]
    simp
  · intro i hi
    simp only
    rw [entry_map hi hi, entry_map hi hi, if_pos rfl, if_pos rfl, colStd_recoord hsq hc hne hi]
    rfl
  · intro i hi j hj hij
    simp only
    rw [entry_map hi hj, entry_map hi hj, if_neg hij, if_neg hij]
    have hcov : covEntry (g.rows.map (recoord c 0 id b.n)) i j = c * c * covEntry g.rows i j := by
      unfold covEntry
      rw [colMean_recoord hne hi, colMean_recoord hne hj, foldl_add_map, foldl_add_map, List.map_map,
        List.length_map, zero_add, zero_add, ← mul_div_assoc]
      congr 1
      have key : ∀ (u v : K) (l : List (List K)), (l.map ((fun r => (r.getD i 0 - (c * u + 0)) *
          (r.getD j 0 - (c * v + 0))) ∘ recoord c 0 id b.n)).sum =
          c * c * (l.map (fun r => (r.getD i 0 - u) * (r.getD j 0 - v))).sum := by
        intro u v l
        induction l with
        | nil => simp
        | cons r l ih =>
          rw [List.map_cons, List.sum_cons, ih, List.map_cons, List.sum_cons, Function.comp,
            recoord_getD r hi, recoord_getD r hj]
          simp only [id, Pi.zero_apply]
          ring
      exact key _ _ _
    have hcc : 0 < c * c := by positivity
    rw [hcov]
    unfold clampEntry
    simp only [mul_lt_mul_iff_right₀ hcc]
    split <;> simp only [mul_lt_mul_iff_right₀ hcc] <;> split <;> rfl

/-! ### The hypotheses can be met -/

/-- Two variables with different bounds, in units `1 / c` from the origin `-a`. -/
noncomputable def Ex.boxCfg (c a : ℝ) : UMDAcCfg ℝ :=
  { base := { sizeGen := 4, maxIter := 5, deadIter := 3, nVars := 2, alpha := 1/2, eliteFactor := 1/4,
              parallel := false, initData := none, wNoise := some (c * 3) }
    lower := .list [c * 0 + a, c * (-5) + a], upper := .array [c * 10 + a, c * 5 + a], vector := none
    lowerFactor := c * (1/2) }

theorem Ex.box_same (c a : ℝ) : SameCont c (fun _ => a) id (Ex.boxCfg 1 0) (Ex.boxCfg c a) where
  base := ⟨rfl, rfl, rfl, rfl, rfl, rfl, by simp [Ex.boxCfg], by
      intro w hw
      simp only [Ex.boxCfg, Option.some.injEq] at hw
      rw [← hw]; norm_num, fun j hj => hj, by show 0 < 2; decide, by intro d hd; simp [Ex.boxCfg] at hd, rfl⟩
  factor := by simp [Ex.boxCfg]
  start := by
    right; right
    refine ⟨rfl, rfl, fun j => if j = 0 then 0 else -5, fun j => if j = 0 then 10 else 5, ?_, ?_, ?_, ?_⟩
    · refine .list _ rfl ?_
      intro j hj
      have : j = 0 ∨ j = 1 := by simp only [Ex.boxCfg] at hj; omega
      rcases this with rfl | rfl <;> simp
    · refine .array _ rfl ?_
      intro j hj
      have : j = 0 ∨ j = 1 := by simp only [Ex.boxCfg] at hj; omega
      rcases this with rfl | rfl <;> simp
    · refine .list _ rfl ?_
      intro j hj
      have : j = 0 ∨ j = 1 := by simp only [Ex.boxCfg] at hj; omega
      rcases this with rfl | rfl <;> simp
    · refine .array _ rfl ?_
      intro j hj
      have : j = 0 ∨ j = 1 := by simp only [Ex.boxCfg] at hj; omega
      rcases this with rfl | rfl <;> simp

theorem Ex.box_ok (c a : ℝ) : (∃ e b, UMDAc id Real.sqrt (Ex.boxCfg c a) = .ok (e, b)) ∧
    ∃ e b, PBIL id Real.sqrt (Ex.boxCfg c a) = .ok (e, b) := by
  have hd : (Ex.boxCfg c a).base.deadIter ≤ (Ex.boxCfg c a).base.maxIter := by
    show (3 : ℤ) ≤ 5; decide
  have hi : ∃ x, contInit (Ex.boxCfg c a) = .ok x := ⟨_, rfl⟩
  obtain ⟨e, he⟩ := mkCont_isOk (fl := id) (base := (Ex.boxCfg c a).base) (cfg := Ex.boxCfg c a)
    (learn := fun b g _ _ => b.learn Real.sqrt g) hd (by intro d hd; simp [Ex.boxCfg] at hd) hi
  obtain ⟨e', he'⟩ := mkCont_isOk (fl := id) (base := { (Ex.boxCfg c a).base with alpha := 1 })
    (cfg := Ex.boxCfg c a) (learn := fun b g _ _ => b.learnAdapt Real.sqrt (Ex.boxCfg c a).base.alpha g)
    hd (by intro d hd; simp [Ex.boxCfg] at hd) hi
  exact ⟨⟨e, _, he⟩, e', _, he'⟩

/-- Back to the old coordinates. -/
theorem Ex.back {c a : ℝ} (hc : c ≠ 0) {r : List ℝ} (hr : r.length = 2) :
    (recoord c (fun _ => a) id 2 r).map (fun x => (x - a) / c) = r := by
  obtain ⟨x, y, rfl⟩ : ∃ x y, r = [x, y] := by
    match r, hr with
    | [x, y], _ => exact ⟨x, y, rfl⟩
  simp [recoord, List.range_succ, hc]

/-- Any cost function, moved by 7 (C68), and measured in other units (C69). -/
example (f : ℕ → List ℝ → ℚ) (ρ : Rand (Draws ℝ)) : ∃ e b e' b',
    UMDAc id Real.sqrt (Ex.boxCfg 1 0) = .ok (e, b) ∧ UMDAc id Real.sqrt (Ex.boxCfg 1 7) = .ok (e', b') ∧
    Image (recoord 1 (fun _ => 7) id 2) (minimize Ex.env e f 0 b ρ)
      (minimize Ex.env e' (fun k r => f k (r.map (fun x => (x - 7) / 1))) 0 b' ρ) := by
  obtain ⟨e, b, h⟩ := (Ex.box_ok 1 0).1
  obtain ⟨e', b', h'⟩ := (Ex.box_ok 1 7).1
  exact ⟨e, b, e', b', h, h', C68_UMDAc Ex.env_valid real_isSqrt (Ex.box_same 1 7) h h'
    ⟨fun _ _ _ => by simp, fun _ _ _ => by simp, fun _ _ _ _ => by simp, fun _ _ _ _ => by simp⟩
    (fun k r hr => by
      have := Ex.back (c := 1) (a := 7) one_ne_zero hr
      exact congrArg (f k) this)⟩

example (f : ℕ → List ℝ → ℚ) (ρ : Rand (Draws ℝ)) : ∃ e b e' b',
    PBIL id Real.sqrt (Ex.boxCfg 1 0) = .ok (e, b) ∧ PBIL id Real.sqrt (Ex.boxCfg 1000 0) = .ok (e', b') ∧
    Image (recoord 1000 0 id 2) (minimize Ex.env e f 0 b ρ)
      (minimize Ex.env e' (fun k r => f k (r.map (fun x => (x - 0) / 1000))) 0 b'
        { ρ with noise := fun i j => 1000 * ρ.noise i j }) := by
  obtain ⟨e, b, h⟩ := (Ex.box_ok 1 0).2
  obtain ⟨e', b', h'⟩ := (Ex.box_ok 1000 0).2
  exact ⟨e, b, e', b', h, h', C69_PBIL_partial Ex.env_valid real_isSqrt (by norm_num) (Ex.box_same 1000 0) h h'
    ⟨fun _ _ _ => by simp, fun _ _ _ => by simp, fun _ _ _ _ => by simp, fun _ _ _ _ => by simp⟩
    (fun k r hr => by
      have := Ex.back (c := 1000) (a := 0) (by norm_num) hr
      exact congrArg (f k) this)⟩

/-- The same box for `EMNA`. -/
noncomputable def Ex.emnaBox (a : ℝ) : EMNACfg ℝ :=
  { base := (Ex.boxCfg 1 a).base, lower := (Ex.boxCfg 1 a).lower, upper := (Ex.boxCfg 1 a).upper
    lowerFactor := 0, upperFactor := 100 }

example (fac : List (List ℝ) → List (List ℝ)) (f : ℕ → List ℝ → ℚ) (ρ : Rand (Draws ℝ)) :
    ∃ e b e' b', EMNA id Real.sqrt fac (Ex.emnaBox 0) = .ok (e, b) ∧
    EMNA id Real.sqrt fac (Ex.emnaBox 7) = .ok (e', b') ∧
    Image (recoord 1 (fun _ => 7) id 2) (minimize Ex.env e f 0 b ρ)
      (minimize Ex.env e' (fun k r => f k (r.map (fun x => (x - 7) / 1))) 0 b' ρ) := by
  have mk : ∀ a, ∃ e b, EMNA id Real.sqrt fac (Ex.emnaBox a) = .ok (e, b) := by
    intro a
    obtain ⟨e, h⟩ := EMNA_isOk (fl := id) (sq := Real.sqrt) (fac := fac) (cfg := Ex.emnaBox a)
      (show (3 : ℤ) ≤ 5 by decide) (by intro d hd; simp [Ex.emnaBox, Ex.boxCfg] at hd) ⟨_, rfl⟩
    exact ⟨e, _, h⟩
  obtain ⟨e, b, h⟩ := mk 0
  obtain ⟨e', b', h'⟩ := mk 7
  have hs := Ex.box_same 1 7
  refine ⟨e, b, e', b', h, h', C68_EMNA (cfg := Ex.emnaBox 0) (cfg' := Ex.emnaBox 7) Ex.env_valid
    real_isSqrt hs.base rfl rfl rfl (.inr ?_) h h'
    ⟨fun _ _ _ => by simp, fun _ _ _ => by simp, fun _ _ _ _ => by simp, fun _ _ _ _ => by simp⟩
    (fun k r hr => by
      have := Ex.back (c := 1) (a := 7) one_ne_zero hr
      exact congrArg (f k) this)⟩
  rcases hs.start with h1 | ⟨_, _, h1, _⟩ | ⟨_, _, h1⟩
  · exact absurd rfl h1
  · simp [Ex.boxCfg] at h1
  · exact h1

/-- The box with its two variables swapped. -/
noncomputable def Ex.swapCfg : UMDAcCfg ℝ :=
  { Ex.boxCfg 1 0 with lower := .list [-5, 0], upper := .list [5, 10] }

def Ex.swap (j : ℕ) : ℕ := if j = 0 then 1 else 0

/-- Swapping the variables of a cost function (C70). -/
example (f : ℕ → List ℝ → ℚ) (ρ : Rand (Draws ℝ)) : ∃ e b e' b',
    UMDAc id Real.sqrt (Ex.boxCfg 1 0) = .ok (e, b) ∧ UMDAc id Real.sqrt Ex.swapCfg = .ok (e', b') ∧
    Image (recoord 1 0 Ex.swap 2) (minimize Ex.env e f 0 b ρ)
      (minimize Ex.env e' (fun k r => f k (recoord 1 0 Ex.swap 2 r)) 0 b'
        { init := fun i j => ρ.init i (Ex.swap j), noise := fun i j => ρ.noise i (Ex.swap j)
          learn := fun t i j => ρ.learn t i (Ex.swap j)
          sample := fun t i j => ρ.sample t i (Ex.swap j) }) := by
  obtain ⟨e, b, h⟩ := (Ex.box_ok 1 0).1
  obtain ⟨e', h'⟩ := mkCont_isOk (fl := id) (base := Ex.swapCfg.base) (cfg := Ex.swapCfg)
    (learn := fun b g _ _ => b.learn Real.sqrt g) (show (3 : ℤ) ≤ 5 by decide)
    (by intro d hd; simp [Ex.swapCfg, Ex.boxCfg] at hd) ⟨_, rfl⟩
  refine ⟨e, b, e', _, h, h', C70_UMDAc (cfg := Ex.boxCfg 1 0) (cfg' := Ex.swapCfg) (fl := id)
    Ex.env_valid real_isSqrt ⟨?_, ?_, ?_⟩ h h'
    ⟨fun _ _ _ => by simp, fun _ _ _ => by simp, fun _ _ _ _ => by simp, fun _ _ _ _ => by simp⟩ ?_⟩
  · refine ⟨rfl, rfl, rfl, rfl, rfl, rfl, by simp [Ex.swapCfg, Ex.boxCfg],
      (Ex.box_same 1 0).base.noiseNonneg, ?_, by show 0 < 2; decide, ?_, rfl⟩
    · intro j hj
      show Ex.swap j < 2
      unfold Ex.swap; split <;> omega
    · intro d hd; simp [Ex.boxCfg] at hd
  · simp [Ex.swapCfg, Ex.boxCfg]
  · right; right
    have two : ∀ j, j < 2 → j = 0 ∨ j = 1 := by intro j hj; omega
    refine ⟨rfl, rfl, fun j => if j = 0 then 0 else -5, fun j => if j = 0 then 10 else 5, ?_, ?_, ?_, ?_⟩
    · refine .list _ rfl ?_
      intro j hj
      rcases two j hj with rfl | rfl <;> simp
    · refine .array _ rfl ?_
      intro j hj
      rcases two j hj with rfl | rfl <;> simp
    · refine .list _ rfl ?_
      intro j hj
      rcases two j hj with rfl | rfl <;> simp [Ex.swap]
    · refine .list _ rfl ?_
      intro j hj
      rcases two j hj with rfl | rfl <;> simp [Ex.swap]
  · intro k r hr
    have hr : r.length = 2 := hr
    obtain ⟨x, y, rfl⟩ : ∃ x y, r = [x, y] := by
      match r, hr with
      | [x, y], _ => exact ⟨x, y, rfl⟩
    congr 1
    show recoord 1 0 Ex.swap 2 (recoord 1 0 Ex.swap 2 [x, y]) = [x, y]
    simp [recoord, List.range_succ, Ex.swap]

/-- `UMDAd` with three bits, the second of which is irrelevant. -/
def Ex.threeCfg : UMDAdCfg ℚ := { Ex.cfg with base := { Ex.cfg.base with nVars := 3 } }

/-- Swaps the two relevant variables and leaves out the other one. -/
def Ex.keep (j : ℕ) : ℕ := if j = 0 then 2 else 0

def Ex.threeRand : Rand (Draws ℚ) :=
  { init := fun i j => Ex.rand.init i (if j = 2 then 0 else 1)
    noise := fun i j => Ex.rand.noise i (if j = 2 then 0 else 1)
    learn := fun t i j => Ex.rand.learn t i (if j = 2 then 0 else 1)
    sample := fun t i j => Ex.rand.sample t i (if j = 2 then 0 else 1) }

theorem Ex.keep_draws (ω : Draws ℚ) :
    SameDraws 1 Ex.keep 2 (fun i j => ω i (if j = 2 then 0 else 1)) ω := by
  intro i j hj
  have : j = 0 ∨ j = 1 := by omega
  rcases this with rfl | rfl <;> simp [Ex.keep]

/-- The run with the irrelevant bit is the run of `Ex.run`, and it finds the optimum. -/
example : ∃ e b, UMDAd id Ex.threeCfg = .ok (e, b) ∧
    Image (recoord 1 0 Ex.keep 2)
      (minimize Ex.env e (fun k r => Ex.cost k [r.getD 2 0, r.getD 0 0]) 0 b Ex.threeRand) Ex.run ∧
    Ex.run.toOption.map (fun x => (x.1.history, x.1.bestCost, x.1.bestInd, x.1.nFev))
      = some ([6, 5, 5], 5, .row [1, 1], 12) := by
  obtain ⟨⟨e, b⟩, h⟩ := Ex.ok_of_isSome (x := UMDAd id Ex.threeCfg) (by decide +kernel)
  refine ⟨e, b, h, ?_, Ex.run_facts⟩
  refine C70_UMDAd (cfg := Ex.threeCfg) (cfg' := Ex.cfg) (fl := id) Ex.env_valid
    ⟨rfl, rfl, rfl, rfl, rfl, rfl, rfl, ?_, ?_, by decide, ?_, rfl⟩ rfl rfl ?_ rfl h Ex.cfg_mk ?_ ?_
  · intro w hw; simp [Ex.threeCfg, Ex.cfg] at hw
  · intro j hj
    show Ex.keep j < 3
    unfold Ex.keep; split <;> omega
  · intro d hd; simp [Ex.threeCfg, Ex.cfg] at hd
  · intro v hv; simp [Ex.threeCfg, Ex.cfg] at hv
  · exact ⟨Ex.keep_draws _, Ex.keep_draws _, fun t => Ex.keep_draws _, fun t => Ex.keep_draws _⟩
  · intro k r _
    have : recoord (1 : ℚ) 0 Ex.keep 2 r = [r.getD 2 0, r.getD 0 0] := by
      simp [recoord, List.range_succ, Ex.keep]
    exact congrArg (Ex.cost k) this

end Verif
