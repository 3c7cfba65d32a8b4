/-
Runs of `UMDAc` and `PBIL`: C08, C15, C48, C53; and a concrete case for C12 (white noise).
-/
import Verif.Props.Gauss
import Verif.Props.Setup

set_option linter.unusedSectionVars false

namespace Verif

open Spec PyCost

variable {K : Type} [Field K] [LinearOrder K] [IsStrictOrderedRing K] [FloorRing K]
variable {C : Type} [PyCost C] {env : Env C}
variable {fl sq : K → K} {cfg : UMDAcCfg K} {e : Eda (List K) (UniGauss K) (Draws K)}
variable {b : UniGauss K} {f : ℕ → List K → C} {ftol : C} {ρ : Rand (Draws K)}

/-- The initializer can be sampled: a usable `vector`, or bounds that are numbers, lists or arrays
of the right length. -/
def InitUsable (cfg : UMDAcCfg K) : Prop :=
  match cfg.vector with
  | some v => ∃ m s, v = [m, s] ∧ m.length = cfg.base.nVars ∧ s.length = cfg.base.nVars ∧
      ∀ x ∈ s, 0 ≤ x
  | none => ∀ bd, bd = cfg.lower ∨ bd = cfg.upper →
      match bd with
      | .none => False
      | .scalar _ => True
      | .list l => l.length = cfg.base.nVars
      | .array l => l.length = cfg.base.nVars

theorem initUsable_sample (h : InitUsable cfg) (hs : 0 ≤ cfg.base.sizeGen) :
    (∃ c, contInit cfg = .ok c) ∧ ∀ ω, ∃ g, contInitSample fl cfg ω = .ok g := by
  unfold InitUsable at h
  cases hv : cfg.vector with
  | some v =>
    rw [hv] at h
    obtain ⟨m, s, rfl, hm, hsl, hpos⟩ := h
    by_cases h0 : m.length = 0
    · -- no variables
      have hn : cfg.base.nVars = 0 := by omega
      have hc : contInit cfg = .ok (.gauss ⟨0, -100, [], []⟩) := by
        unfold contInit
        rw [hv]
        simp [hm, hsl, uniGaussInit, hn, choice]
      refine ⟨⟨_, hc⟩, fun ω => ?_⟩
      unfold contInitSample
      rw [hc]
      exact ⟨_, UniGauss.sample_eq (lb := -100) (n := 0) ⟨rfl, rfl, rfl, rfl, by simp⟩ hs ω⟩
    · have hc : contInit cfg = .ok (.gauss ⟨cfg.base.nVars, -100, m, s⟩) := by
        unfold contInit
        rw [hv]
        have : cfg.base.nVars ≠ 0 := by omega
        simp [hm, hsl, uniGaussInit, this]
      refine ⟨⟨_, hc⟩, fun ω => ?_⟩
      unfold contInitSample
      rw [hc]
      exact ⟨_, UniGauss.sample_eq (lb := -100) (n := cfg.base.nVars) ⟨rfl, rfl, hm, hsl, hpos⟩ hs ω⟩
  | none =>
    rw [hv] at h
    have key : ∀ bd : Bound K, bd = cfg.lower ∨ bd = cfg.upper → bd.check cfg.base.nVars = true ∧
        bd.isNone = false ∧ bd.fits cfg.base.nVars = true := by
      intro bd hbd
      have := h bd hbd
      cases bd with
      | none => exact this.elim
      | scalar x => simp [Bound.check, Bound.isNone, Bound.fits]
      | list l => simp only at this; simp [Bound.check, Bound.isNone, Bound.fits, this]
      | array l => simp only at this; simp [Bound.check, Bound.isNone, Bound.fits, this]
    obtain ⟨a1, a2, a3⟩ := key _ (.inl rfl)
    obtain ⟨b1, b2, b3⟩ := key _ (.inr rfl)
    have hc : contInit cfg = .ok (.uniform ⟨cfg.base.nVars, cfg.lower, cfg.upper⟩) := by
      unfold contInit
      rw [hv]
      simp [UniformInit.new, a1, b1]
    refine ⟨⟨_, hc⟩, fun ω => ?_⟩
    unfold contInitSample
    rw [hc]
    exact UniformInit.sample_isOk ω a2 b2 hs a3 b3

/-- What a valid configuration of `UMDAc`/`PBIL` is; `m` is the least number of rows of a
generation (`size_gen`, or the rows of `init_data` if fewer), `t` the number of selected rows. -/
structure ContValid (cpu : ℕ) (base : BaseCfg K (List K)) (cfg : UMDAcCfg K) (m : ℕ) (t : ℤ) :
    Prop where
  dead : base.deadIter ≤ base.maxIter
  size : (m : ℤ) ≤ cfg.base.sizeGen
  pos : 1 ≤ m
  trunc : 1 ≤ t
  cpu : base.parallel = true → cpu ≤ m
  noise : base.noiseAttr = 0 ∨ (0 < base.noiseAttr ∧ t ≤ m)
  init : base.initData = none → InitUsable cfg
  build : ∃ c, contInit cfg = .ok c
  data : ∀ d, base.initData = some d → NumGen base d ∧ m ≤ d.rows.length

theorem cont_noRaise {base : BaseCfg K (List K)} (hnv : base.nVars = cfg.base.nVars)
    {learn : UniGauss K → Gen (List K) → Gen (List K) → Draws K → Except PyErr (UniGauss K)}
    {m : ℕ} {cpu : ℕ} (hval : ContValid cpu base cfg m (selLen fl base.sizeGen base.alpha))
    (hmk : mkCont fl base cfg learn = .ok (e, b))
    (hl : ∀ (b : UniGauss K) (g el : Gen (List K)) ω, b.Good cfg.base.nVars cfg.lowerFactor →
      g.cols = cfg.base.nVars → g.rows ≠ [] →
      min (selLen fl base.sizeGen base.alpha).toNat m ≤ g.rows.length →
      ∃ b', learn b g el ω = .ok b' ∧ b'.Good cfg.base.nVars cfg.lowerFactor)
    (ρ : Rand (Draws K)) :
    NoRaise cpu e ρ m (NumGen base) (NumTrain fl base m)
      (fun b => b.Good cfg.base.nVars cfg.lowerFactor) := by
  obtain ⟨he, hc, rfl⟩ := mkCont_ok hmk
  have hs0 : 0 ≤ cfg.base.sizeGen := by have := hval.size; omega
  refine mkEda_noRaise cpu he hval.pos hval.cpu hval.trunc hval.noise hval.data ?_ ?_ ?_
  · intro hd
    obtain ⟨g, hg⟩ := (initUsable_sample (hval.init hd) hs0).2 ρ.init
    obtain ⟨h1, h2, h3, h4⟩ := contInit_shape hg
    have := hval.size
    exact ⟨g, hg, ⟨by rw [h2, hnv], by rw [hnv]; exact h3, by rw [h1]; simp, fun _ => h1⟩, by omega⟩
  · intro pm g el t hP h1 _ h3 h4 _
    exact hl pm g el _ hP (by rw [h1, hnv]) h3 h4
  · intro pm t hP
    have := hval.size
    refine ⟨_, UniGauss.sample_eq hP hs0 _, ⟨hnv.symm, ?_, by simp, fun _ => rfl⟩, ?_⟩
    · intro r hr
      obtain ⟨i, _, rfl⟩ := List.mem_map.1 hr
      simp [hnv]
    · simp; omega

theorem umdac_learn_ok (hsq : IsSqrt sq) (b : UniGauss K) (g : Gen (List K))
    (hb : b.Good cfg.base.nVars cfg.lowerFactor) (hc : g.cols = cfg.base.nVars)
    (hne : g.rows ≠ []) : ∃ b', b.learn sq g = .ok b' ∧ b'.Good cfg.base.nVars cfg.lowerFactor := by
  obtain ⟨b', h1, h2, _⟩ := UniGauss.learn_good hsq hb hc hne
  exact ⟨b', h1, h2⟩

/-! ### C53 -/

/-- **C53** for `UMDAc`: valid configurations can be constructed and every run returns. -/
theorem C53_UMDAc_never_raises [LawfulCost C] [UniformCost C] (hv : env.Valid) (hsq : IsSqrt sq)
    {m : ℕ} (hval : ContValid env.cpu cfg.base cfg m (selLen fl cfg.base.sizeGen cfg.base.alpha))
    (hnum : ∀ k r, IsNum (f k r)) :
    ∃ e b, UMDAc fl sq cfg = .ok (e, b) ∧ ∃ res s, minimize env e f ftol b ρ = .ok (res, s) := by
  obtain ⟨e, he⟩ := mkCont_isOk (fl := fl) (cfg := cfg) (learn := fun b g _ _ => b.learn sq g)
    hval.dead (fun d hd => (hval.data d hd).1.cols) hval.build
  refine ⟨e, _, he, ?_⟩
  exact minimize_progress hv (cont_noRaise rfl hval he
    (fun b g _ _ hb hc hne _ => umdac_learn_ok hsq b g hb hc hne) ρ) hnum (UniGauss.new_good _ _)

/-- **C53** for `PBIL`: with at least two individuals per generation. -/
theorem C53_PBIL_never_raises [LawfulCost C] [UniformCost C] (hv : env.Valid) (hsq : IsSqrt sq)
    {m : ℕ} (hm : 2 ≤ m) (hfl : 2 ≤ selLen fl cfg.base.sizeGen 1)
    (hval : ContValid env.cpu { cfg.base with alpha := 1 } cfg m (selLen fl cfg.base.sizeGen 1))
    (hnum : ∀ k r, IsNum (f k r)) :
    ∃ e b, PBIL fl sq cfg = .ok (e, b) ∧ ∃ res s, minimize env e f ftol b ρ = .ok (res, s) := by
  obtain ⟨e, he⟩ := mkCont_isOk (fl := fl) (cfg := cfg) (base := { cfg.base with alpha := 1 })
    (learn := fun b g _ _ => b.learnAdapt sq cfg.base.alpha g)
    hval.dead (fun d hd => (hval.data d hd).1.cols) hval.build
  refine ⟨e, _, he, ?_⟩
  refine minimize_progress hv (cont_noRaise (base := { cfg.base with alpha := 1 }) rfl hval he
    (fun b g _ _ hb hc hne hlen => ?_) ρ) hnum (UniGauss.new_good _ _)
  have h2 : 2 ≤ g.rows.length := by simp only at hlen; omega
  obtain ⟨b', h1, h2, _⟩ := UniGauss.learnAdapt_good (alpha := cfg.base.alpha) hsq hb hc h2
  exact ⟨b', h1, h2⟩

/-- **C53** exactly which arguments the constructors of `UMDAc` and `PBIL` accept: `dead_iter` at most
`max_iter`, initial data with `n_variables` columns, and either a vector of two rows with `n_variables` numbers
each, or bounds that are not lists of another length. -/
theorem C53_cont_constructible_iff :
    ((∃ r, UMDAc fl sq cfg = .ok r) ↔ cfg.base.deadIter ≤ cfg.base.maxIter ∧
      (∀ d, cfg.base.initData = some d → d.cols = cfg.base.nVars) ∧
      (∀ v, cfg.vector = some v → ∃ m s, v = [m, s] ∧ m.length = cfg.base.nVars ∧ s.length = cfg.base.nVars) ∧
      (cfg.vector = none → ∀ l, cfg.lower = .list l ∨ cfg.upper = .list l → l.length = cfg.base.nVars)) ∧
    ((∃ r, PBIL fl sq cfg = .ok r) ↔ ∃ r, UMDAc fl sq cfg = .ok r) := by
  have hci : (∃ c, contInit cfg = .ok c) ↔
      (∀ v, cfg.vector = some v → ∃ m s, v = [m, s] ∧ m.length = cfg.base.nVars ∧ s.length = cfg.base.nVars) ∧
      (cfg.vector = none → ∀ l, cfg.lower = .list l ∨ cfg.upper = .list l → l.length = cfg.base.nVars) := by
    unfold contInit
    cases hv : cfg.vector with
    | none =>
      simp only [UniformInit.new]
      constructor
      · rintro ⟨c, hc⟩
        refine ⟨by simp, fun _ l hl => ?_⟩
        rcases hl with hl | hl <;> simp only [hl, Bound.check] at hc <;> split_ifs at hc <;> simp_all
      · rintro ⟨_, h⟩
        have h := h trivial
        have key : ∀ bd : Bound K, bd = cfg.lower ∨ bd = cfg.upper → bd.check cfg.base.nVars = true := by
          intro bd hbd
          cases bd with
          | list l =>
            have := h l (by rcases hbd with h | h <;> simp [← h])
            simp [Bound.check, this]
          | _ => rfl
        rw [if_neg (by simp [key _ (.inl rfl)]), if_neg (by simp [key _ (.inr rfl)])]
        exact ⟨_, rfl⟩
    | some v =>
      constructor
      · rintro ⟨c, hc⟩
        refine ⟨?_, by simp⟩
        rintro v' hv'
        obtain rfl := Option.some.inj hv'
        match v, hc with
        | [m, s], hc =>
          simp only at hc
          split_ifs at hc with hl
          exact ⟨m, s, rfl, hl⟩
        | [], hc => cases hc
        | [_], hc => cases hc
        | _ :: _ :: _ :: _, hc => cases hc
      · rintro ⟨h, _⟩
        obtain ⟨m, s, rfl, hm, hs⟩ := h v rfl
        simp only [hm, hs, and_self, if_true]
        unfold uniGaussInit
        rw [if_neg (by rw [hm, hs]; simp)]
        by_cases h0 : m.length = 0
        · have hn : cfg.base.nVars = 0 := by omega
          simp [h0, hn, choice]
        · rw [if_neg h0]; exact ⟨_, rfl⟩
  have hmk : ∀ (base : BaseCfg K (List K)) learn, base.deadIter = cfg.base.deadIter → base.maxIter = cfg.base.maxIter →
      base.initData = cfg.base.initData → base.nVars = cfg.base.nVars →
      ((∃ r, mkCont fl base cfg learn = .ok r) ↔ cfg.base.deadIter ≤ cfg.base.maxIter ∧
        (∀ d, cfg.base.initData = some d → d.cols = cfg.base.nVars) ∧ ∃ c, contInit cfg = .ok c) := by
    intro base learn h1 h2 h3 h4
    constructor
    · rintro ⟨⟨e, b⟩, h⟩
      obtain ⟨he, hc, _⟩ := mkCont_ok h
      obtain ⟨k1, k2⟩ := mkEda_isOk.1 ⟨e, he⟩
      rw [h1, h2] at k1
      rw [h3, h4] at k2
      exact ⟨k1, k2, hc⟩
    · rintro ⟨k1, k2, k3⟩
      obtain ⟨e, he⟩ := mkCont_isOk (fl := fl) (cfg := cfg) (base := base) (learn := learn) (by rw [h1, h2]; exact k1)
        (by rw [h3, h4]; exact k2) k3
      exact ⟨_, he⟩
  have h1 := hmk cfg.base (fun b g _ _ => b.learn sq g) rfl rfl rfl rfl
  have h2 := hmk { cfg.base with alpha := 1 } (fun b g _ _ => b.learnAdapt sq cfg.base.alpha g) rfl rfl rfl rfl
  rw [hci] at h1 h2
  exact ⟨h1, h2.trans h1.symm⟩

/-- **C53** `PBIL` with one individual per generation always raises when it should run at least two
generations (for at least one variable). -/
theorem C53_PBIL_one_individual (h : PBIL fl sq cfg = .ok (e, b)) (hn : 0 < cfg.base.nVars)
    (hmax : 2 ≤ cfg.base.maxIter) (hone : selLen fl cfg.base.sizeGen 1 = 1) (hv : env.Valid)
    (r : EdaResult (List K) C × St (List K) C (UniGauss K)) : minimize env e f ftol b ρ ≠ .ok r := by
  intro hrun
  obtain ⟨res, s⟩ := r
  obtain ⟨he, _, rfl⟩ := mkCont_ok h
  obtain ⟨noisy, el, pm', _, h2, h3⟩ := mkEda_first_learn hv he hmax
    (fun _ g hg => (contInit_shape hg).2.1) hrun
  have h2 := h2 (by simp only; omega)
  simp only at h2 h3
  rw [C25_too_few_rows hn (by omega)] at h3
  simp at h3

/-! ### C15 -/

/-- **C15** for `UMDAc`: whatever means and deviations the model holds when `minimize` is called
(after any complete or interrupted earlier runs), the result, the exception and the calls of the
cost function are those of the fresh object, given the same draws. -/
theorem C15_UMDAc_rerun (h : UMDAc fl sq cfg = .ok (e, b)) (hn : 0 < cfg.base.nVars)
    {pm : UniGauss K} (hpn : pm.n = b.n) (hpl : pm.lb = b.lb) :
    (minimize env e f ftol pm ρ).map (fun x => (x.1, x.2.log)) =
      (minimize env e f ftol b ρ).map (fun x => (x.1, x.2.log)) := by
  obtain ⟨he, _, rfl⟩ := mkCont_ok h
  have hm := mkEda_ok he
  refine minimize_pm_irrelevant (Rel := fun a c => a.n = c.n ∧ a.lb = c.lb ∧ 0 < a.n) ?_
    ⟨hpn, hpl, by rw [hpn]; exact hn⟩
  rintro ⟨n1, l1, m1, s1⟩ ⟨n2, l2, m2, s2⟩ g el t ⟨h1, h2, h3⟩
  simp only at h1 h2 h3
  subst h1 h2
  rw [hm.updatePm]
  simp only [UniGauss.learn, if_neg h3.ne']

/-- **C15** for `PBIL`. -/
theorem C15_PBIL_rerun (h : PBIL fl sq cfg = .ok (e, b)) (hn : 0 < cfg.base.nVars)
    {pm : UniGauss K} (hpn : pm.n = b.n) (hpl : pm.lb = b.lb) :
    (minimize env e f ftol pm ρ).map (fun x => (x.1, x.2.log)) =
      (minimize env e f ftol b ρ).map (fun x => (x.1, x.2.log)) := by
  obtain ⟨he, _, rfl⟩ := mkCont_ok h
  have hm := mkEda_ok he
  refine minimize_pm_irrelevant (Rel := fun a c => a.n = c.n ∧ a.lb = c.lb ∧ 0 < a.n) ?_
    ⟨hpn, hpl, by rw [hpn]; exact hn⟩
  rintro a c g el t ⟨h1, h2, h3⟩
  rw [hm.updatePm]
  exact C25_previous_means_unused h3 h1 h2

/-- The hypotheses of C15 hold for every model reachable by earlier runs. -/
theorem C15_UMDAc_reused (h : UMDAc fl sq cfg = .ok (e, b)) {pm : UniGauss K} (hp : Reused e b pm) :
    pm.n = b.n ∧ pm.lb = b.lb := by
  obtain ⟨he, _, _⟩ := mkCont_ok h
  have hm := mkEda_ok he
  induction hp with
  | fresh => exact ⟨rfl, rfl⟩
  | learned _ hu ih =>
    rw [hm.updatePm] at hu
    obtain ⟨h1, h2⟩ := UniGauss.learn_key hu
    exact ⟨h1.trans ih.1, h2.trans ih.2⟩

theorem C15_PBIL_reused (h : PBIL fl sq cfg = .ok (e, b)) {pm : UniGauss K} (hp : Reused e b pm) :
    pm.n = b.n ∧ pm.lb = b.lb := by
  obtain ⟨he, _, _⟩ := mkCont_ok h
  have hm := mkEda_ok he
  induction hp with
  | fresh => exact ⟨rfl, rfl⟩
  | learned _ hu ih =>
    rw [hm.updatePm] at hu
    obtain ⟨h1, h2⟩ := UniGauss.learnAdapt_key hu
    exact ⟨h1.trans ih.1, h2.trans ih.2⟩

/-! ### C08 -/

/-- **C08** for `UMDAc` without `init_data`. -/
theorem C08_UMDAc [LawfulCost C] [UniformCost C] (hv : env.Valid) (h : UMDAc fl sq cfg = .ok (e, b))
    (hd : cfg.base.initData = none) {res : EdaResult (List K) C} {s : St (List K) C (UniGauss K)}
    (hrun : minimize env e f ftol b ρ = .ok (res, s)) : res.nFev = s.log.flatten.length := by
  obtain ⟨he, _, _⟩ := mkCont_ok h
  exact mkEda_nfev hv he hd (fun ω g hg => (contInit_shape hg).2.2.2)
    (fun pm ω g hg => (UniGauss.sample_shape hg).2.2.2) hrun

/-- **C08** for `PBIL` without `init_data`. -/
theorem C08_PBIL [LawfulCost C] [UniformCost C] (hv : env.Valid) (h : PBIL fl sq cfg = .ok (e, b))
    (hd : cfg.base.initData = none) {res : EdaResult (List K) C} {s : St (List K) C (UniGauss K)}
    (hrun : minimize env e f ftol b ρ = .ok (res, s)) : res.nFev = s.log.flatten.length := by
  obtain ⟨he, _, _⟩ := mkCont_ok h
  exact mkEda_nfev hv he hd (fun ω g hg => (contInit_shape hg).2.2.2)
    (fun pm ω g hg => (UniGauss.sample_shape hg).2.2.2) hrun

/-! ### C48 -/

/-- The first generation of `UMDAc` without `vector` and `init_data` comes from the uniform
initializer. -/
theorem umdac_first (h : UMDAc fl sq cfg = .ok (e, b)) (hd : cfg.base.initData = none)
    (hvec : cfg.vector = none) {s : St (List K) C (UniGauss K)} (h0 : start env e f b ρ = .ok s) :
    ∃ u, UniformInit.new cfg.base.nVars cfg.lower cfg.upper = .ok u ∧
      u.sample fl cfg.base.sizeGen ρ.init = .ok s.gen := by
  obtain ⟨he, _, _⟩ := mkCont_ok h
  have hm := mkEda_ok he
  obtain ⟨_, _, _, _, _, hs⟩ := start_ok h0
  have hi := hs.init
  rw [hm.initNone hd] at hi
  unfold contInitSample contInit at hi
  rw [hvec] at hi
  simp only at hi
  split at hi
  · simp at hi
  rename_i c hc
  split at hc
  · simp at hc
  rename_i u hu
  obtain rfl := Except.ok.inj hc
  exact ⟨u, hu, hi⟩

/-- **C48** (partial: only the first generation) without `vector` and `init_data`, every individual
of the first generation of `UMDAc` lies within the given bounds (exact arithmetic). -/
theorem C48_first_generation_partial (h : UMDAc id sq cfg = .ok (e, b)) (hd : cfg.base.initData = none)
    (hvec : cfg.vector = none) (hω : Unit01 ρ.init) {s : St (List K) C (UniGauss K)}
    (h0 : start env e f b ρ = .ok s) :
    ∀ r ∈ s.gen.rows, ∀ (j : ℕ) (l u : K), j < cfg.base.nVars → boundOf cfg.lower j = some l →
      boundOf cfg.upper j = some u → l ≤ u → ∃ v, r[j]? = some v ∧ l ≤ v ∧ v ≤ u := by
  obtain ⟨u, hu, hi⟩ := umdac_first h hd hvec h0
  intro r hr j l up hj hl hu' hle
  obtain ⟨v, h1, h2, h3, _⟩ := (C30_within_bounds_partial hu hω hi).2.2.2 r hr j l up hj hl hu' hle
  exact ⟨v, h1, h2, h3⟩

/-- **C48** (partial: only the first generation) the same in double arithmetic. -/
theorem C48_first_generation_double_partial (h : UMDAc fl64 sq cfg = .ok (e, b))
    (hd : cfg.base.initData = none) (hvec : cfg.vector = none) (hω : Draw64 ρ.init)
    {s : St (List K) C (UniGauss K)} (h0 : start env e f b ρ = .ok s) :
    ∀ r ∈ s.gen.rows, ∀ (j : ℕ) (l u : K), j < cfg.base.nVars → boundOf cfg.lower j = some l →
      boundOf cfg.upper j = some u → IsDouble l → IsDouble u → l ≤ u →
      ∃ v, r[j]? = some v ∧ l ≤ v ∧ v ≤ u := by
  obtain ⟨u, hu, hi⟩ := umdac_first h hd hvec h0
  exact (C30_double_partial hu hω hi).2.2.2

/-- **C48** in general is false for every `UMDAc` with `lower_factor > 0` and at least two
generations: for every target generation there are draws for which the second generation that
`minimize` evaluates is exactly the target, whatever the bounds. -/
theorem C48_UMDAc_reaches_everything [LawfulCost C] [UniformCost C] (hv : env.Valid)
    (hsq : IsSqrt sq) {m : ℕ} (hn : 0 < cfg.base.nVars) (hlf : 0 < cfg.lowerFactor)
    (hmax : 2 ≤ cfg.base.maxIter)
    (hval : ContValid env.cpu cfg.base cfg m (selLen fl cfg.base.sizeGen cfg.base.alpha))
    (hnum : ∀ k r, IsNum (f k r)) (target : List (List K)) (ht : Rect cfg.base.nVars target)
    (hlen : (target.length : ℤ) = cfg.base.sizeGen) :
    ∃ e b, UMDAc fl sq cfg = .ok (e, b) ∧ ∃ ω res s,
      minimize env e f ftol b { ρ with sample := ω } = .ok (res, s) ∧
      s.log[1]?.map (List.map Prod.fst) = some target := by
  obtain ⟨e, he⟩ := mkCont_isOk (fl := fl) (cfg := cfg) (learn := fun b g _ _ => b.learn sq g)
    hval.dead (fun d hd => (hval.data d hd).1.cols) hval.build
  refine ⟨e, _, he, ?_⟩
  have hm := mkEda_ok (mkCont_ok he).1
  have hnr := fun ρ => cont_noRaise (ρ := ρ) rfl hval he
    (fun b g _ _ hb hc hne _ => umdac_learn_ok hsq b g hb hc hne)
  obtain ⟨s0, nz, pm', h1, h2, h3, h4, h5⟩ := reach_second (ρ := ρ) (f := f) (ftol := ftol)
    (Q := fun b => ∀ s ∈ b.std, cfg.lowerFactor ≤ s) hv (fun smp => hnr _)
    (by
      intro pm g el t pm' hP hN _ hu
      rw [hm.updatePm] at hu
      obtain ⟨b', hb', _, hb2⟩ := UniGauss.learn_good hsq hP hN.1 hN.2.2.1
      simp only at hu
      rw [hb'] at hu
      obtain rfl := Except.ok.inj hu
      exact hb2 hn)
    hnum (UniGauss.new_good _ _)
  obtain ⟨ω, hω⟩ := C24_full_support h3.n h3.mean h3.std (fun s hs => hlf.trans_le (h4 s hs)) target ht
  obtain ⟨s', brk, hst, hg, _⟩ := h5 ω _ (by rw [hm.sample]; simp only; rw [← hlen]; exact hω)
  obtain ⟨res, s, hrun⟩ := minimize_progress (ftol := ftol) hv
    (hnr { ρ with sample := fun _ => ω }) hnum (UniGauss.new_good cfg.base.nVars cfg.lowerFactor)
  refine ⟨fun _ => ω, res, s, hrun, ?_⟩
  rw [run_second hv (by rw [hm.maxIter]; exact hmax) hrun h1 h2 hst, hg]

/-! ### Concrete cases -/

namespace Ex

/-- `UMDAc` with 4 individuals of one variable in `[0, 1]`, 3 generations, no noise. -/
noncomputable def cont : UMDAcCfg ℝ :=
  { base := { sizeGen := 4, maxIter := 3, deadIter := 2, nVars := 1, alpha := 1/2,
              eliteFactor := 1/4, parallel := false, initData := none, wNoise := none }
    lower := .scalar 0, upper := .list [1], vector := none, lowerFactor := 1/2 }

theorem selLen_half : selLen (id : ℝ → ℝ) 4 (1/2) = 2 := by
  unfold selLen pyInt Num.truncZ
  norm_num

theorem selLen_one : selLen (id : ℝ → ℝ) 4 1 = 4 := by
  unfold selLen pyInt Num.truncZ
  norm_num

theorem cont_usable : InitUsable cont := by
  show ∀ bd, bd = Bound.scalar (0 : ℝ) ∨ bd = Bound.list [1] → _
  rintro bd (rfl | rfl)
  · trivial
  · rfl

theorem cont_valid : ContValid Ex.env.cpu cont.base cont 4 (selLen id cont.base.sizeGen cont.base.alpha) where
  dead := by show (2 : ℤ) ≤ 3; norm_num
  size := le_refl _
  pos := by norm_num
  trunc := by show 1 ≤ selLen (id : ℝ → ℝ) 4 (1/2); rw [selLen_half]; norm_num
  cpu := by intro h; exact absurd h (by simp [cont])
  noise := .inl (by simp [BaseCfg.noiseAttr, cont])
  init := fun _ => cont_usable
  build := (initUsable_sample (fl := id) cont_usable (by show (0 : ℤ) ≤ 4; norm_num)).1
  data := by intro d hd; simp [cont] at hd

theorem cont_valid_pbil : ContValid Ex.env.cpu { cont.base with alpha := 1 } cont 4
    (selLen id cont.base.sizeGen (1 : ℝ)) where
  dead := by show (2 : ℤ) ≤ 3; norm_num
  size := le_refl _
  pos := by norm_num
  trunc := by show 1 ≤ selLen (id : ℝ → ℝ) 4 1; rw [selLen_one]; norm_num
  cpu := by intro h; exact absurd h (by simp [cont])
  noise := .inl (by simp [BaseCfg.noiseAttr, cont])
  init := fun _ => cont_usable
  build := (initUsable_sample (fl := id) cont_usable (by show (0 : ℤ) ≤ 4; norm_num)).1
  data := by intro d hd; simp [cont] at hd

end Ex

/-- C53, C15, C08: a run of `UMDAc`, repeated. -/
example (ρ ρ' : Rand (Draws ℝ)) : ∃ e b, UMDAc id Real.sqrt Ex.cont = .ok (e, b) ∧
    ∃ res s, minimize Ex.env e (fun _ _ => (3 : ℚ)) 0 b ρ = .ok (res, s) ∧
      res.nFev = s.log.flatten.length ∧
      (minimize Ex.env e (fun _ _ => (3 : ℚ)) 0 s.pm ρ').map (fun x => (x.1, x.2.log)) =
        (minimize Ex.env e (fun _ _ => (3 : ℚ)) 0 b ρ').map (fun x => (x.1, x.2.log)) := by
  obtain ⟨e, b, h, res, s, hr⟩ := C53_UMDAc_never_raises (fl := id) (ρ := ρ) (ftol := (0 : ℚ))
    (f := fun _ _ => 3) Ex.env_valid real_isSqrt Ex.cont_valid (fun _ _ => field_isNum _)
  refine ⟨e, b, h, res, s, hr, C08_UMDAc Ex.env_valid h rfl hr, ?_⟩
  obtain ⟨k1, k2⟩ := C15_UMDAc_reused h (reused_after_run .fresh hr)
  exact C15_UMDAc_rerun h (by show 0 < 1; norm_num) k1 k2

/-- C53, C15, C08: a run of `PBIL`, repeated. -/
example (ρ ρ' : Rand (Draws ℝ)) : ∃ e b, PBIL id Real.sqrt Ex.cont = .ok (e, b) ∧
    ∃ res s, minimize Ex.env e (fun _ _ => (3 : ℚ)) 0 b ρ = .ok (res, s) ∧
      res.nFev = s.log.flatten.length ∧
      (minimize Ex.env e (fun _ _ => (3 : ℚ)) 0 s.pm ρ').map (fun x => (x.1, x.2.log)) =
        (minimize Ex.env e (fun _ _ => (3 : ℚ)) 0 b ρ').map (fun x => (x.1, x.2.log)) := by
  obtain ⟨e, b, h, res, s, hr⟩ := C53_PBIL_never_raises (cfg := Ex.cont) (fl := id) (ρ := ρ) (ftol := (0 : ℚ))
    (f := fun _ _ => 3) Ex.env_valid real_isSqrt (m := 4) (by norm_num)
    (by show 2 ≤ selLen (id : ℝ → ℝ) 4 1; rw [Ex.selLen_one]; norm_num)
    Ex.cont_valid_pbil (fun _ _ => field_isNum _)
  refine ⟨e, b, h, res, s, hr, C08_PBIL Ex.env_valid h rfl hr, ?_⟩
  obtain ⟨k1, k2⟩ := C15_PBIL_reused h (reused_after_run .fresh hr)
  exact C15_PBIL_rerun h (by show 0 < 1; norm_num) k1 k2

/-- **C48** is false: with bounds `[0, 1]` the second generation evaluated can be four times `7`. -/
theorem C48_refuted (ρ : Rand (Draws ℝ)) : ∃ e b, UMDAc id Real.sqrt Ex.cont = .ok (e, b) ∧
    ∃ ω res s, minimize Ex.env e (fun _ _ => (3 : ℚ)) 0 b { ρ with sample := ω } = .ok (res, s) ∧
      s.log[1]?.map (List.map Prod.fst) = some [[7], [7], [7], [7]] :=
  C48_UMDAc_reaches_everything Ex.env_valid real_isSqrt (by show 0 < 1; norm_num)
    (by show (0 : ℝ) < 1/2; norm_num) (by show (2 : ℤ) ≤ 3; norm_num) Ex.cont_valid
    (fun _ _ => field_isNum _) [[7], [7], [7], [7]]
    (by intro r hr; simp at hr; subst hr; rfl) rfl

/-- The hypotheses of the partial theorem for the first generation. -/
example (ρ : Rand (Draws ℝ)) (hω : Unit01 ρ.init) : ∃ e b s, UMDAc id Real.sqrt Ex.cont = .ok (e, b) ∧
    start Ex.env e (fun _ _ => (3 : ℚ)) b ρ = .ok s ∧
    ∀ r ∈ s.gen.rows, ∃ v, r[0]? = some v ∧ 0 ≤ v ∧ v ≤ 1 := by
  obtain ⟨e, b, h, res, s, hr⟩ := C53_UMDAc_never_raises (fl := id) (ρ := ρ) (ftol := (0 : ℚ))
    (f := fun _ _ => 3) Ex.env_valid real_isSqrt Ex.cont_valid (fun _ _ => field_isNum _)
  obtain ⟨s0, _, h0, _⟩ := minimize_ok hr
  refine ⟨e, b, s0, h, h0, fun r hr => ?_⟩
  exact C48_first_generation_partial h rfl rfl hω h0 r hr 0 0 1 (by show 0 < 1; norm_num) rfl rfl
    (by norm_num)

/-! ### C12: a run with white noise -/

namespace Ex

/-- `UMDAc` over the rationals with `w_noise = 1/2` (the noise is only added to the training set;
with the identity instead of the square root, to be computable). -/
def noisyCfg : UMDAcCfg ℚ :=
  { base := { sizeGen := 4, maxIter := 3, deadIter := 2, nVars := 2, alpha := 1/2,
              eliteFactor := 1/4, parallel := false, initData := none, wNoise := some (1/2) }
    lower := .scalar 0, upper := .scalar 1, vector := none, lowerFactor := 1/2 }

def noisyRand : Rand (Draws ℚ) :=
  { rand with noise := fun i j => if i = j then 1/10 else -1/5 }

theorem noisy_some : (UMDAc (id : ℚ → ℚ) id noisyCfg).toOption.isSome = true := by decide +kernel

def noisyEda : Eda (List ℚ) (UniGauss ℚ) (Draws ℚ) := ((UMDAc id id noisyCfg).toOption.get noisy_some).1
def noisyPm : UniGauss ℚ := ((UMDAc id id noisyCfg).toOption.get noisy_some).2

theorem noisy_ok : UMDAc id id noisyCfg = .ok (noisyEda, noisyPm) := get_ok noisy_some

end Ex

def Ex.noisyStep : Except PyErr (St (List ℚ) ℚ (UniGauss ℚ) × St (List ℚ) ℚ (UniGauss ℚ) × Bool) :=
  (start Ex.env Ex.noisyEda Ex.cost Ex.noisyPm Ex.noisyRand).bind fun s0 =>
    (Ex.noisyEda.mkNoise Ex.noisyRand.noise).bind fun nz =>
      (step Ex.env Ex.noisyEda Ex.cost 0 Ex.noisyRand nz 1 s0).map (fun x => (s0, x))

/-- The first iteration of that run: the selected individuals are not the ones learned from. -/
example : ∃ s0 s' brk nz s1, ∃ noisy : Gen (List ℚ),
    Visited Ex.env Ex.noisyEda Ex.cost 0 Ex.noisyPm Ex.noisyRand 1 s0 ∧
    Ex.noisyEda.mkNoise Ex.noisyRand.noise = .ok nz ∧
    step Ex.env Ex.noisyEda Ex.cost 0 Ex.noisyRand nz 1 s0 = .ok (s', brk) ∧
    truncation Ex.env Ex.noisyEda s0 = .ok s1 ∧ s1.gen.rows = [[1/4, 3/4], [3/4, 1/4]] ∧
    s0.pm.learn id noisy = .ok s'.pm ∧
    noisy.rows[0]? = some [(1/4 + 1/10 : ℚ), 3/4 + -1/5] ∧ s'.elite.rows = [[1/4, 3/4]] := by
  obtain ⟨⟨s0, s', brk⟩, h, hf⟩ := Ex.facts_of (x := Ex.noisyStep)
    (g := fun x => ((truncation Ex.env Ex.noisyEda x.1).toOption.map
      (fun s1 => (s1.gen.rows, s1.elite.rows, s1.gen.cols))))
    (y := some ([[1/4, 3/4], [3/4, 1/4]], [[1/4, 3/4]], 2)) (by decide +kernel)
  unfold Ex.noisyStep at h
  cases h0 : start Ex.env Ex.noisyEda Ex.cost Ex.noisyPm Ex.noisyRand with
  | error err => rw [h0] at h; simp [Except.bind] at h
  | ok t0 =>
  cases hn : Ex.noisyEda.mkNoise Ex.noisyRand.noise with
  | error err => rw [h0, hn] at h; simp [Except.bind] at h
  | ok nz =>
  rw [h0, hn] at h
  simp only [Except.bind] at h
  cases hst : step Ex.env Ex.noisyEda Ex.cost 0 Ex.noisyRand nz 1 t0 with
  | error err => rw [hst] at h; simp [Except.map] at h
  | ok x =>
  rw [hst] at h
  simp only [Except.map, Except.ok.injEq, Prod.mk.injEq] at h
  obtain ⟨rfl, rfl⟩ := h
  have hvis : Visited Ex.env Ex.noisyEda Ex.cost 0 Ex.noisyPm Ex.noisyRand 1 t0 := .first h0
  obtain ⟨s1, noisy, h1, h2, h3, h4, h5, h6, h7⟩ := C12_noise_only_training_set (w := 1/2) Ex.env_valid
    rfl (by norm_num) (by norm_num) (by decide +kernel) (mkCont_ok Ex.noisy_ok).1 hvis hn hst
  simp only at hf
  rw [h1] at hf
  simp only [Except.toOption, Option.map_some, Option.some.injEq, Prod.mk.injEq] at hf
  refine ⟨t0, s', brk, nz, s1, noisy, hvis, by first | exact hn | rfl, hst, h1, hf.1, h2, ?_, by rw [h6]; exact hf.2.1⟩
  rw [h5 0 [1/4, 3/4] (by rw [hf.1]; rfl) rfl]
  decide +kernel

end Verif
