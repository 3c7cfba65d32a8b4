/-
C93: UMDAcat does not depend on the names of the categories.
-/
import Verif.Lemmas.RenameLaw
import Verif.Props.Stuck
import Verif.Props.Leave

set_option linter.unusedSectionVars false

namespace Verif

open PyCost Spec MeasureTheory ProbabilityTheory

section
variable {α β K C : Type} [LinearOrder α] [LinearOrder β] [PyCost C] {env : Env C} {ren : ℕ → α → β}
variable {f : ℕ → List (Cat α) → C} {f' : ℕ → List (Cat β) → C} {ftol : C}

section order
variable [Field K] [LinearOrder K] [IsStrictOrderedRing K] [FloorRing K] {fl : K → K} {cfg : CatCfg α K}
variable {ρ : Rand (Draws K)} {e : Eda (List (Cat α)) (UniCat ℕ α K) (Draws K)} {b : UniCat ℕ α K}

/-- **C93** new names in the same alphabetical order: with the same random numbers the run is the same, up to the
names (it also raises the same exception, if any). -/
theorem C93_same_order (hv : env.Valid) (h : UMDAcat fl cfg = .ok (e, b)) (hw : cfg.WF)
    (hren : ∀ j, StrictMono (ren j)) (hf : ∀ k r, f' k (renameRow ren r) = f k r) :
    ∃ e' b', UMDAcat fl (renameCfg ren cfg) = .ok (e', b') ∧
      runReport (minimize env e' f' ftol b' ρ) = (runReport (minimize env e f ftol b ρ)).map (renameReport ren) := by
  obtain ⟨e', b', h'⟩ := UMDAcat_rename_isOk (ren := ren) h
  refine ⟨e', b', h', ?_⟩
  have hsim := umdacat_rename_sim h h' hw ρ ρ rfl e.sample e'.sample (by
    intro t m m' hm
    obtain ⟨he, _⟩ := UMDAcat_ok h
    obtain ⟨hmk, _⟩ := catEda_ok he
    obtain ⟨he', _⟩ := UMDAcat_ok h'
    obtain ⟨hmk', _⟩ := catEda_ok he'
    rw [hmk.sample, hmk'.sample]
    have := renModel_sample_mono hren hm cfg.base.sizeGen (ρ.sample t)
    simp only [renameCfg]
    rw [this]
    cases hg : m.sample cfg.base.sizeGen (ρ.sample t) with
    | error err => exact .error _
    | ok g =>
      obtain ⟨_, _, h3, _, h5, _⟩ := UniCat.sample_ok hg
      have hlen : m.vars.length = cfg.base.nVars := by
        rw [(renModel_tables hm).1, List.length_range]
      rw [hlen] at h3 h5
      exact .ok (genRel_rename h3 h5))
  have hb := (UMDAcat_ok h).2
  have hb' := (UMDAcat_ok h').2
  exact report_rename (minimize_sim (ftol := ftol) hv hsim (fun k r r' hr => by rw [hr.2]; exact hf k r)
    ⟨by rw [hb]; rfl, by rw [hb']; rfl⟩)

end order

variable {fl : ℝ → ℝ} {cfg : CatCfg α ℝ} {ρ : Rand (Draws ℝ)}
variable {e : Eda (List (Cat α)) (UniCat ℕ α ℝ) (Draws ℝ)} {b : UniCat ℕ α ℝ}

/-- **C93** any new names, as long as the categories of a variable keep different names: the result of the run, and
the individuals that it evaluates, have the same probability law, up to the names.  (The draws of the first generation
are fixed; the statement holds for every choice of them.) -/
theorem C93_law [Countable α] (hv : env.Valid) (h : UMDAcat fl cfg = .ok (e, b)) (hw : cfg.WF)
    (hren : ∀ j, Function.Injective (ren j)) (hf : ∀ k r, f' k (renameRow ren r) = f k r)
    {D : Measure (Draws ℝ)} [IsProbabilityMeasure D] (hD : IndepDraws D (fun _ => unif01) (fun ω => ω)) :
    ∃ e' b', UMDAcat fl (renameCfg ren cfg) = .ok (e', b') ∧
      ∀ A : Set (Except PyErr (RunReport (List (Cat β)) C)),
        eachGen D {ω | runReport (minimize env e' f' ftol b' { ρ with sample := ω }) ∈ A} =
        eachGen D {ω | (runReport (minimize env e f ftol b { ρ with sample := ω })).map (renameReport ren) ∈ A} := by
  obtain ⟨e', b', h'⟩ := UMDAcat_rename_isOk (ren := ren) h
  refine ⟨e', b', h', fun A => ?_⟩
  have hlaw : LawSim D D (RenRel ren cfg.base.nVars) cfg.base.nVars cfg.base.nVars
      (fun m m' => m.vars = List.range cfg.base.nVars ∧ m'.vars = List.range cfg.base.nVars)
      (RenModel ren cfg.base.nVars) e e' ρ ρ := by
    refine ⟨fun G G' hG => umdacat_rename_sim h h' hw ρ ρ rfl _ _ (fun t m m' _ => hG), fun m m' hm => ?_⟩
    obtain ⟨he, _⟩ := UMDAcat_ok h
    obtain ⟨hmk, _⟩ := catEda_ok he
    obtain ⟨he', _⟩ := UMDAcat_ok h'
    obtain ⟨hmk', _⟩ := catEda_ok he'
    rw [hmk.sample, hmk'.sample]
    exact renModel_law hren hm cfg.base.sizeGen hD
  have hb := (UMDAcat_ok h).2
  have hb' := (UMDAcat_ok h').2
  refine (minimize_law (ftol := ftol) hv hlaw (fun k r r' hr => by rw [hr.2]; exact hf k r)
    ⟨by rw [hb]; rfl, by rw [hb']; rfl⟩
    (A := {a | (runReport a).map (renameReport ren) ∈ A}) (A' := {a | runReport a ∈ A}) ?_).symm
  intro a a' haa
  show (runReport a).map (renameReport ren) ∈ A ↔ runReport a' ∈ A
  rw [report_rename haa]

/-- **C93** in particular, the probabilities of all events about `best_cost`, `n_fev` and `history` do not depend on
the names at all. -/
theorem C93_costs [Countable α] (hv : env.Valid) (h : UMDAcat fl cfg = .ok (e, b)) (hw : cfg.WF)
    (hren : ∀ j, Function.Injective (ren j)) (hf : ∀ k r, f' k (renameRow ren r) = f k r)
    {D : Measure (Draws ℝ)} [IsProbabilityMeasure D] (hD : IndepDraws D (fun _ => unif01) (fun ω => ω)) :
    ∃ e' b', UMDAcat fl (renameCfg ren cfg) = .ok (e', b') ∧
      ∀ Q : C → ℤ → List C → Prop,
        eachGen D {ω | ∃ res s, minimize env e' f' ftol b' { ρ with sample := ω } = .ok (res, s) ∧
          Q res.bestCost res.nFev res.history} =
        eachGen D {ω | ∃ res s, minimize env e f ftol b { ρ with sample := ω } = .ok (res, s) ∧
          Q res.bestCost res.nFev res.history} := by
  obtain ⟨e', b', h', hall⟩ := C93_law (f := f) (f' := f') (ftol := ftol) (ρ := ρ) hv h hw hren hf hD
  refine ⟨e', b', h', fun Q => ?_⟩
  have := hall {a | ∃ x, a = .ok x ∧ Q x.1.bestCost x.1.nFev x.1.history}
  convert this using 2
  · ext ω
    simp only [Set.mem_ofPred_eq, runReport]
    constructor
    · rintro ⟨res, s, hrun, hq⟩
      exact ⟨_, by rw [hrun]; rfl, hq⟩
    · rintro ⟨x, hx, hq⟩
      rcases hrun : minimize env e' f' ftol b' { ρ with sample := ω } with err | ⟨res, s⟩
      · rw [hrun] at hx; cases hx
      · rw [hrun] at hx
        obtain rfl := Except.ok.inj hx
        exact ⟨res, s, rfl, hq⟩
  · ext ω
    simp only [Set.mem_ofPred_eq, runReport]
    constructor
    · rintro ⟨res, s, hrun, hq⟩
      exact ⟨_, by rw [hrun]; rfl, hq⟩
    · rintro ⟨x, hx, hq⟩
      rcases hrun : minimize env e f ftol b { ρ with sample := ω } with err | ⟨res, s⟩
      · rw [hrun] at hx; cases hx
      · rw [hrun] at hx
        obtain rfl := Except.ok.inj hx
        exact ⟨res, s, rfl, hq⟩

end

section examples

/-- One variable with the categories 0 and 1, both in the first generation. -/
def Ex.renCfg : CatCfg ℕ ℚ :=
  { base := { sizeGen := 2, maxIter := 2, deadIter := 0, nVars := 1, alpha := 3 / 2, eliteFactor := 0, parallel := false,
              initData := some { dt := .object, cols := 1, rows := [[.str 0], [.str 1]] }, wNoise := none }
    space := { objArr := false, vals := [[.str 0, .str 1]], freq := [[1 / 2, 1 / 2]] } }

/-- The number of the category. -/
def Ex.renCost : ℕ → List (Cat ℕ) → ℚ
  | _, [.str a] => a
  | _, _ => 7

/-- The history of the run on the renamed problem; all draws are 1/4. -/
def Ex.renHistory (ren : ℕ → ℕ → ℕ) (f : ℕ → List (Cat ℕ) → ℚ) : Option (List ℚ) :=
  (UMDAcat id (renameCfg ren Ex.renCfg)).toOption.bind (fun x =>
    (minimize Ex.env x.1 f 0 x.2 ⟨fun _ _ => 1 / 4, fun _ _ => 0, fun _ _ _ => 0, fun _ _ _ => 1 / 4⟩).toOption.map
      (fun y => y.1.history))

/-- Exchange the names 0 and 1. -/
def Ex.swap01 : ℕ → ℕ
  | 0 => 1
  | 1 => 0
  | a => a

theorem Ex.swap01_swap01 (a : ℕ) : Ex.swap01 (Ex.swap01 a) = a := by
  match a with
  | 0 => rfl
  | 1 => rfl
  | _ + 2 => rfl

/-- **C93** the order of the names matters for a single run: exchanging the names 0 and 1 changes the run with the same
random numbers, although the cost function is changed accordingly (the history is 0, 0 with the old names and 0, 1 with
the new ones).  So `C93_same_order` needs its condition, and `C93_law` cannot be improved to equality run by run. -/
theorem C93_order_matters : ∃ ren : ℕ → ℕ → ℕ, (∀ j, Function.Injective (ren j)) ∧
    ∃ f' : ℕ → List (Cat ℕ) → ℚ, (∀ k r, f' k (renameRow ren r) = Ex.renCost k r) ∧
      Ex.renHistory (fun _ a => a) Ex.renCost = some [0, 0] ∧ Ex.renHistory ren f' = some [0, 1] := by
  have hcat : ∀ v : Cat ℕ, renameCat Ex.swap01 (renameCat Ex.swap01 v) = v := by
    intro v
    cases v with
    | int z => rfl
    | str a => simp only [renameCat, Ex.swap01_swap01]
  have hsw : ∀ r : List (Cat ℕ), renameRow (fun _ => Ex.swap01) (renameRow (fun _ => Ex.swap01) r) = r := by
    intro r
    refine List.ext_getElem? fun j => ?_
    rw [getElem?_renameRow, getElem?_renameRow, Option.map_map]
    have : (renameCat Ex.swap01 ∘ renameCat Ex.swap01) = id := funext hcat
    rw [this, Option.map_id, id]
  exact ⟨fun _ => Ex.swap01, fun _ => Function.LeftInverse.injective Ex.swap01_swap01,
    fun k r => Ex.renCost k (renameRow (fun _ => Ex.swap01) r), fun k r => by simp only [hsw],
    by decide +kernel, by decide +kernel⟩

/-- The names 10 and 20 instead of 0 and 1 have the same order: the run is the same. -/
example : Ex.renHistory (fun _ a => 10 + 10 * a) (fun _ r => match r with | [.str 10] => 0 | _ => 1) = some [0, 0] := by
  decide +kernel

/-- `C93_same_order` for this renaming. -/
example (f' : ℕ → List (Cat ℕ) → ℚ) (hf : ∀ k r, f' k (renameRow (fun _ a => 10 + 10 * a) r) = Ex.renCost k r)
    (ρ : Rand (Draws ℚ)) : ∃ e b e' b', UMDAcat id Ex.renCfg = .ok (e, b) ∧
      UMDAcat id (renameCfg (fun _ a => 10 + 10 * a) Ex.renCfg) = .ok (e', b') ∧
      runReport (minimize Ex.env e' f' 0 b' ρ) =
        (runReport (minimize Ex.env e Ex.renCost 0 b ρ)).map (renameReport (fun _ a => 10 + 10 * a)) := by
  have hok : (UMDAcat id Ex.renCfg).toOption.isSome = true := by decide +kernel
  rcases h : UMDAcat id Ex.renCfg with err | ⟨e, b⟩
  · rw [h] at hok; cases hok
  obtain ⟨e', b', h', hr⟩ := C93_same_order (ren := fun _ a => 10 + 10 * a) (f' := f') (f := Ex.renCost) (ftol := 0)
    (ρ := ρ) Ex.env_valid h (by
      intro d hd r hr
      simp only [Ex.renCfg, Option.some.injEq] at hd
      subst hd
      simp at hr
      rcases hr with rfl | rfl <;> rfl) (fun j a c hac => by simp; omega) hf
  exact ⟨e, b, e', b', rfl, h', hr⟩

/-- Exchanging the names of two categories: `UMDAcat` misses the optimum with the same probability. -/
example (m : ℕ) : ∃ e b e' b', UMDAcat id (stuckCat m) = .ok (e, b) ∧
    UMDAcat id (renameCfg (fun _ => Equiv.swap 0 1) (stuckCat m)) = .ok (e', b') ∧
    eachGen (Measure.infinitePi fun _ : ℕ => Measure.infinitePi fun _ : ℕ => unif01)
      {ω | ∃ res s, minimize realEnv e' (fun _ r => if r = [.str 0] then 0 else 1) 0 b'
        ⟨fun _ _ => 1 / 2, fun _ _ => 0, fun _ _ _ => 0, ω⟩ = .ok (res, s) ∧ res.bestCost ≠ 0} =
    eachGen (Measure.infinitePi fun _ : ℕ => Measure.infinitePi fun _ : ℕ => unif01)
      {ω | ∃ res s, minimize realEnv e (fun _ r => if r = [.str 1] then 0 else 1) 0 b
        ⟨fun _ _ => 1 / 2, fun _ _ => 0, fun _ _ _ => 0, ω⟩ = .ok (res, s) ∧ res.bestCost ≠ 0} := by
  have hD := indepDraws_exist (fun _ => unif01)
  obtain ⟨e, b, h, _⟩ := C53_UMDAcat_never_raises (env := realEnv) (fl := id) (cfg := stuckCat m) (m := 1)
    (ρ := ⟨fun _ _ => 1 / 2, fun _ _ => 0, fun _ _ _ => 0, fun _ _ _ => 1 / 2⟩) (f := fun _ _ => (0 : ℝ)) (ftol := 0)
    realEnv_valid
    { pos := le_refl _, dead := by simp [stuckCat], vars := by simp [stuckCat], size := by norm_num [stuckCat]
      cpu := by simp [stuckCat], trunc := by norm_num [stuckCat, selLen, pyInt, Num.truncZ]
      space := by
        intro j hj
        have hj : j < 1 := hj
        obtain rfl : j = 0 := by omega
        exact ⟨_, _, rfl, rfl, rfl, by simp, by norm_num, by simp [Cat.isStr]⟩
      data := by intro d hd; simp [stuckCat] at hd }
    (by intro i j; norm_num) (by intro t i j; norm_num) (by intro k r; simp [IsNum, PyCost.eq])
  obtain ⟨e', b', h', hall⟩ := C93_costs (env := realEnv) (ren := fun _ => Equiv.swap 0 1) (ftol := 0)
    (f := fun _ r => if r = [.str 1] then (0 : ℝ) else 1) (f' := fun _ r => if r = [.str 0] then (0 : ℝ) else 1)
    (ρ := ⟨fun _ _ => 1 / 2, fun _ _ => 0, fun _ _ _ => 0, fun _ _ _ => 1 / 2⟩) realEnv_valid h
    (fun d hd => by simp [stuckCat] at hd) (fun _ => (Equiv.swap 0 1).injective) (by
      intro k r
      have : renameRow (fun _ => Equiv.swap 0 1) r = [.str 0] ↔ r = [.str 1] := by
        constructor
        · intro hr
          have hl := congrArg List.length hr
          rw [length_renameRow] at hl
          match r, hl with
          | [v], _ =>
            cases v with
            | int z => simp [renameRow, renameCat] at hr
            | str a =>
              simp only [renameRow, List.mapIdx_cons, List.mapIdx_nil, renameCat, List.cons.injEq, Cat.str.injEq,
                and_true] at hr
              rw [Equiv.swap_apply_eq_iff, Equiv.swap_apply_left] at hr
              rw [hr]
        · rintro rfl
          simp [renameRow, renameCat]
      simp only [this]) hD
  exact ⟨e, b, e', b', h, h', hall (fun c _ _ => c ≠ 0)⟩

end examples

end Verif
