/-
C90: an `EDACustom` object with the parts of a ready-made algorithm is that algorithm.
-/
import Verif.Spec.CustomRun
import Verif.Lemmas.Embed
import Verif.Props.Custom

set_option linter.unusedSectionVars false

namespace Verif

open Spec PyCost

section c90

variable {S L K : Type} [DecidableEq L] [Field K] [LinearOrder K] [IsStrictOrderedRing K] [FloorRing K]
variable {lib : Libs S L K} {o : Custom S L K}
variable {C : Type} [PyCost C] {env : Env C} {f : ℕ → List K → C} {ftol : C} {ρ : Rand (Draws K)}

theorem sameRun_of_eq {σ τ R : Type} {ι : σ → τ} {x : Except PyErr (EdaResult R C × St R C σ)}
    {y : Except PyErr (EdaResult R C × St R C τ)} (h : y = x.map (fun z => (z.1, z.2.withPm ι))) :
    SameRun ι x y := by
  subst h
  cases x with
  | error err => exact rfl
  | ok z => exact ⟨rfl, rfl, rfl, rfl, rfl, rfl, rfl⟩

/-- The run of an `EDACustom` whose model and initializer act as those of `e`. -/
theorem custom_embed {σ : Type} {cfg : BaseCfg K (List K)} {init : Draws K → Except PyErr (Gen (List K))}
    {learn : σ → Gen (List K) → Gen (List K) → Draws K → Except PyErr σ}
    {sample : σ → Draws K → Except PyErr (Gen (List K))} {e : Eda (List K) σ (Draws K)} {b : σ}
    (hs : SameSettings o cfg) (he : mkEda lib.fl cfg init learn sample = .ok e) {ι : σ → Pm S L K}
    {i : Ini K} (hp : o.slots.pm = some (ι b)) (hi : o.slots.init = some i)
    (h1 : ∀ ω, i.sample lib o.sizeGen ω = init ω)
    (h2 : ∀ m g el ω, (ι m).learn lib g ω = (learn m g el ω).map ι)
    (h3 : ∀ m ω, (ι m).sample lib o.sizeGen ω = sample m ω) :
    SameRun ι (minimize env e f ftol b ρ) (o.minimize lib.fl lib env f ftol ρ) := by
  have hm := mkEda_ok he
  have hb : o.base = cfg := by
    obtain ⟨k1, k2, k3, k4, k5, k6, k7, k8, k9⟩ := hs
    cases cfg
    simp only at k1 k2 k3 k4 k5 k6 k7 k8 k9
    subst k1 k2 k3 k4 k5 k6 k7 k8 k9
    rfl
  obtain ⟨e', he'⟩ := (mkEda_isOk (fl := lib.fl) (cfg := o.base)
    (init := fun ω => i.sample lib o.sizeGen ω) (learn := fun (p : Pm S L K) g _ ω => p.learn lib g ω)
    (sample := fun p ω => p.sample lib o.sizeGen ω)).2
    ⟨by rw [hb]; exact hm.dead, fun d hd => by rw [hb, hs.initData] at hd; cases hd⟩
  have hm' := mkEda_ok he'
  have hr : o.minimize lib.fl lib env f ftol ρ = minimize env e' f ftol (ι b) ρ := by
    unfold Custom.minimize
    rw [hp, hi]
    dsimp only
    rw [show o.eda lib.fl lib i = .ok e' from he']
  rw [hr]
  refine sameRun_of_eq (minimize_embed (ι := ι) ?_ b)
  exact {
    sizeGen := by rw [hm'.sizeGen, hm.sizeGen, hb]
    maxIter := by rw [hm'.maxIter, hm.maxIter, hb]
    deadIter := by rw [hm'.deadIter, hm.deadIter, hb]
    truncLen := by rw [hm'.truncLen, hm.truncLen, hb]
    eliteLen := by rw [hm'.eliteLen, hm.eliteLen, hb]
    parallel := by rw [hm'.parallel, hm.parallel, hb]
    init := fun ω => by
      rw [hm'.initNone rfl, hm.initNone hs.initData]; exact h1 ω
    noise := fun ω => by rw [hm'.mkNoise, hm.mkNoise, hb]
    learn := fun m g el ω => by rw [hm'.updatePm, hm.updatePm]; exact h2 m g el ω
    sample := fun m ω => by rw [hm'.sample, hm.sample]; exact h3 m ω }

/-- The initializer of `UMDAc` and `PBIL`: uniform in the given bounds, or normal with the given means
and deviations (umda_continuous.py:100-104). -/
inductive ContIni (cfg : UMDAcCfg K) : Ini K → Prop
  | uniform {u} : cfg.vector = none → UniformInit.new cfg.base.nVars cfg.lower cfg.upper = .ok u →
      ContIni cfg (.uniform u)
  | gauss {m s k b} : cfg.vector = some [m, s] → uniGaussInit cfg.base.nVars m s (-100) 100 k = .ok b →
      ContIni cfg (.gauss b)

theorem contIni_sample {cfg : UMDAcCfg K} {i : Ini K} (h : ContIni cfg i)
    (hok : ∃ c, contInit cfg = .ok c) (ω : Draws K) :
    i.sample lib cfg.base.sizeGen ω = contInitSample lib.fl cfg ω := by
  obtain ⟨c, hc⟩ := hok
  unfold contInitSample
  rw [hc]
  unfold contInit at hc
  cases h with
  | uniform hv hu =>
    rw [hv] at hc
    dsimp only at hc
    rw [hu] at hc
    cases Except.ok.inj hc
    rfl
  | @gauss m s k b hv hb =>
    rw [hv] at hc
    dsimp only at hc
    split at hc
    · rename_i hlen
      have hk : uniGaussInit cfg.base.nVars m s (-100) 100 (fun _ _ => 0) = .ok b := by
        rw [← hb]
        unfold uniGaussInit
        rcases Nat.eq_zero_or_pos m.length with h0 | h0
        · have hn : cfg.base.nVars = 0 := by omega
          rw [hn]
          simp [choice]
        · simp only [show ¬ m.length = 0 by omega, if_false]
      rw [hk] at hc
      cases Except.ok.inj hc
      rfl
    · cases hc

/-- **C90** `UMDAc`: the same run as `EDACustom` with a `UniGauss` model and the same initializer. -/
theorem C90_UMDAc {cfg : UMDAcCfg K} {e b} (h : UMDAc lib.fl lib.sq cfg = .ok (e, b))
    (hs : SameSettings o cfg.base)
    (hp : o.slots.pm = some (.gauss (UniGauss.new cfg.base.nVars cfg.lowerFactor)))
    {i : Ini K} (hi : o.slots.init = some i) (hc : ContIni cfg i) :
    SameRun Pm.gauss (minimize env e f ftol b ρ) (o.minimize lib.fl lib env f ftol ρ) := by
  unfold UMDAc mkCont at h
  split at h
  · cases h
  rename_i e' he
  split at h
  · cases h
  rename_i c hcc
  cases Except.ok.inj h
  refine custom_embed hs he hp hi (fun ω => ?_) (fun _ _ _ _ => rfl) (fun _ _ => ?_)
  · rw [← hs.sizeGen]; exact contIni_sample hc ⟨c, hcc⟩ ω
  · rw [← hs.sizeGen]; rfl

/-- **C90** `PBIL` with learning rate `a`: the same run as `EDACustom` with `alpha=1` and an
`AdaptUniGauss` model with learning rate `a`. -/
theorem C90_PBIL {cfg : UMDAcCfg K} {e b} (h : PBIL lib.fl lib.sq cfg = .ok (e, b))
    (hs : SameSettings o { cfg.base with alpha := 1 })
    (hp : o.slots.pm = some (.adapt cfg.base.alpha (UniGauss.new cfg.base.nVars cfg.lowerFactor)))
    {i : Ini K} (hi : o.slots.init = some i) (hc : ContIni cfg i) :
    SameRun (Pm.adapt cfg.base.alpha) (minimize env e f ftol b ρ)
      (o.minimize lib.fl lib env f ftol ρ) := by
  unfold PBIL mkCont at h
  split at h
  · cases h
  rename_i e' he
  split at h
  · cases h
  rename_i c hcc
  cases Except.ok.inj h
  refine custom_embed hs he hp hi (fun ω => ?_) (fun _ _ _ _ => rfl) (fun _ _ => ?_)
  · rw [← hs.sizeGen]; exact contIni_sample hc ⟨c, hcc⟩ ω
  · rw [← hs.sizeGen]; rfl

theorem iniUniform_sample {n : ℕ} {lower upper : Bound K} {u : UniformInit K} {size : ℤ}
    (hu : UniformInit.new n lower upper = .ok u) (ω : Draws K) :
    (Ini.uniform u).sample lib size ω = uniformInitSample lib.fl n lower upper size ω := by
  unfold uniformInitSample
  rw [hu]
  rfl

/-- **C90** `EMNA`: the same run as `EDACustom` with a `MultiGauss` model and a uniform initializer. -/
theorem C90_EMNA {cfg : EMNACfg K} {e b} (h : EMNA lib.fl lib.sq lib.fac cfg = .ok (e, b))
    (hs : SameSettings o cfg.base)
    (hp : o.slots.pm =
      some (.multi (MultiGauss.new cfg.base.nVars cfg.lowerFactor cfg.upperFactor)))
    {u : UniformInit K} (hi : o.slots.init = some (.uniform u))
    (hu : UniformInit.new cfg.base.nVars cfg.lower cfg.upper = .ok u) :
    SameRun Pm.multi (minimize env e f ftol b ρ) (o.minimize lib.fl lib env f ftol ρ) := by
  unfold EMNA at h
  split at h
  · cases h
  rename_i e' he
  rw [hu] at h
  cases Except.ok.inj h
  refine custom_embed hs he hp hi (fun ω => ?_) (fun _ _ _ _ => rfl) (fun _ _ => ?_)
  · rw [← hs.sizeGen]; exact iniUniform_sample hu ω
  · rw [← hs.sizeGen]; rfl

/-- **C90** `EGNA`: the same run as `EDACustom` with a `GBN` model with the same lists and a uniform
initializer. -/
theorem C90_EGNA {cfg : NetCfg K L} {e b} (h : EGNA lib.fl lib.net lib.name cfg = .ok (e, b))
    (hs : SameSettings o cfg.base)
    (hp : o.slots.pm = some (.net (BNet.new lib.net .gaussian
      ((List.range cfg.base.nVars).map lib.name) cfg.white cfg.black)))
    {u : UniformInit K} (hi : o.slots.init = some (.uniform u))
    (hu : UniformInit.new cfg.base.nVars cfg.lower cfg.upper = .ok u) :
    SameRun Pm.net (minimize env e f ftol b ρ) (o.minimize lib.fl lib env f ftol ρ) := by
  unfold EGNA at h
  split at h
  · cases h
  rename_i e' he
  rw [hu] at h
  cases Except.ok.inj h
  refine custom_embed hs he hp hi (fun ω => ?_) (fun _ _ _ _ => rfl) (fun _ _ => ?_)
  · rw [← hs.sizeGen]; exact iniUniform_sample hu ω
  · rw [← hs.sizeGen]; rfl

/-- **C90** `UnivariateKEDA`: the same run as `EDACustom` with a `UniKDE` model and a uniform
initializer. -/
theorem C90_UnivariateKEDA {cfg : KedaCfg K} {e b}
    (h : UnivariateKEDA lib.fl lib.isPD lib.h2 lib.fac cfg = .ok (e, b))
    (hs : SameSettings o cfg.base)
    (hp : o.slots.pm = some (.kde { n := cfg.base.nVars, kernel := none }))
    {u : UniformInit K} (hi : o.slots.init = some (.uniform u))
    (hu : UniformInit.new cfg.base.nVars cfg.lower cfg.upper = .ok u) :
    SameRun Pm.kde (minimize env e f ftol b ρ) (o.minimize lib.fl lib env f ftol ρ) := by
  unfold UnivariateKEDA at h
  split at h
  · cases h
  rename_i e' he
  rw [hu] at h
  cases Except.ok.inj h
  refine custom_embed hs he hp hi (fun ω => ?_) (fun _ _ _ _ => rfl) (fun _ _ => ?_)
  · rw [← hs.sizeGen]; exact iniUniform_sample hu ω
  · rw [← hs.sizeGen]; rfl

/-- **C90** what the constructor itself builds: `pm=1`, `init=4`, `bounds=(lo, up)` is `UMDAc` in the
landscape from `lo` to `up` with `lower_factor=lo` — the lower bound of the landscape is also the lower
bound of the standard deviations. -/
theorem C90_new_UMDAc {a : CustomArgs K} {ω : CustomDraws K} (h : Custom.new lib a ω = .ok o)
    (hpm : a.pm = 1) (hin : a.init = 4) {lo up : K} (hb : a.bounds = [lo, up]) :
    ∃ e b, UMDAc lib.fl lib.sq
        { base := { sizeGen := a.sizeGen, maxIter := a.maxIter, deadIter := a.deadIter
                    nVars := a.nVars, alpha := a.alpha, eliteFactor := a.eliteFactor
                    parallel := false, initData := none, wNoise := some (1 / 2) }
          lower := .scalar lo, upper := .scalar up, vector := none, lowerFactor := lo } = .ok (e, b) ∧
      SameRun Pm.gauss (minimize env e f ftol b ρ) (o.minimize lib.fl lib env f ftol ρ) := by
  obtain ⟨hd, p, i, hp, hi, _, rfl⟩ := Custom.new_ok h
  have hp' : p = .gauss (UniGauss.new a.nVars lo) := by
    unfold customPm at hp
    rw [if_pos hpm, hb] at hp
    exact (Except.ok.inj hp).symm
  obtain ⟨u, hu, hi'⟩ : ∃ u, UniformInit.new a.nVars (.scalar lo) (.scalar up) = .ok u ∧
      i = .uniform u := by
    unfold customInit at hi
    rw [hin, hb] at hi
    exact ⟨_, rfl, (Except.ok.inj hi).symm⟩
  set cfg : UMDAcCfg K :=
    { base := { sizeGen := a.sizeGen, maxIter := a.maxIter, deadIter := a.deadIter
                nVars := a.nVars, alpha := a.alpha, eliteFactor := a.eliteFactor
                parallel := false, initData := none, wNoise := some (1 / 2) }
      lower := .scalar lo, upper := .scalar up, vector := none, lowerFactor := lo } with hcfg
  obtain ⟨e, he⟩ := (mkEda_isOk (fl := lib.fl) (cfg := cfg.base)
    (init := contInitSample lib.fl cfg) (learn := fun (b : UniGauss K) g _ _ => b.learn lib.sq g)
    (sample := fun b ω => b.sample cfg.base.sizeGen ω)).2 ⟨hd, fun d hdd => by cases hdd⟩
  have hU : UMDAc lib.fl lib.sq cfg = .ok (e, UniGauss.new a.nVars lo) := by
    unfold UMDAc mkCont
    rw [he]
    dsimp only
    have : contInit cfg = .ok (.uniform u) := by
      unfold contInit
      rw [hcfg]
      dsimp only
      rw [hu]
    rw [this]
  refine ⟨e, _, hU, ?_⟩
  subst hp' hi'
  exact C90_UMDAc hU ⟨rfl, rfl, rfl, rfl, rfl, rfl, rfl, rfl, rfl⟩ rfl rfl (.uniform rfl hu)

/-- **C90** `pm=3`, `init=4`, `bounds=(lo, up)` is `EMNA` in the landscape from `lo` to `up`. -/
theorem C90_new_EMNA {a : CustomArgs K} {ω : CustomDraws K} (h : Custom.new lib a ω = .ok o)
    (hpm : a.pm = 3) (hin : a.init = 4) {lo up : K} (hb : a.bounds = [lo, up]) :
    ∃ e b, EMNA lib.fl lib.sq lib.fac
        { base := { sizeGen := a.sizeGen, maxIter := a.maxIter, deadIter := a.deadIter
                    nVars := a.nVars, alpha := a.alpha, eliteFactor := a.eliteFactor
                    parallel := false, initData := none, wNoise := some (1 / 2) }
          lower := .scalar lo, upper := .scalar up, lowerFactor := lo, upperFactor := up } =
        .ok (e, b) ∧
      SameRun Pm.multi (minimize env e f ftol b ρ) (o.minimize lib.fl lib env f ftol ρ) := by
  obtain ⟨hd, p, i, hp, hi, _, rfl⟩ := Custom.new_ok h
  have hp' : p = .multi (MultiGauss.new a.nVars lo up) := by
    unfold customPm at hp
    rw [hpm, hb] at hp
    exact (Except.ok.inj hp).symm
  obtain ⟨u, hu, hi'⟩ : ∃ u, UniformInit.new a.nVars (.scalar lo) (.scalar up) = .ok u ∧
      i = .uniform u := by
    unfold customInit at hi
    rw [hin, hb] at hi
    exact ⟨_, rfl, (Except.ok.inj hi).symm⟩
  set cfg : EMNACfg K :=
    { base := { sizeGen := a.sizeGen, maxIter := a.maxIter, deadIter := a.deadIter
                nVars := a.nVars, alpha := a.alpha, eliteFactor := a.eliteFactor
                parallel := false, initData := none, wNoise := some (1 / 2) }
      lower := .scalar lo, upper := .scalar up, lowerFactor := lo, upperFactor := up } with hcfg
  obtain ⟨e, he⟩ := (mkEda_isOk (fl := lib.fl) (cfg := cfg.base)
    (init := uniformInitSample lib.fl cfg.base.nVars cfg.lower cfg.upper cfg.base.sizeGen)
    (learn := fun (b : MultiGauss K) g _ _ => MultiGauss.learn lib.sq b g)
    (sample := fun b ω => MultiGauss.sample lib.fac b cfg.base.sizeGen ω)).2
    ⟨hd, fun d hdd => by cases hdd⟩
  have hU : EMNA lib.fl lib.sq lib.fac cfg = .ok (e, MultiGauss.new a.nVars lo up) := by
    unfold EMNA
    rw [he]
    dsimp only
    rw [show UniformInit.new cfg.base.nVars cfg.lower cfg.upper = .ok u from hu]
  refine ⟨e, _, hU, ?_⟩
  subst hp' hi'
  exact C90_EMNA hU ⟨rfl, rfl, rfl, rfl, rfl, rfl, rfl, rfl, rfl⟩ rfl rfl hu

/-- **C90** `pm=4`, `init=4`, `bounds=(lo, up)` is `EGNA` without lists in the landscape from `lo` to
`up`. -/
theorem C90_new_EGNA {a : CustomArgs K} {ω : CustomDraws K} (h : Custom.new lib a ω = .ok o)
    (hpm : a.pm = 4) (hin : a.init = 4) {lo up : K} (hb : a.bounds = [lo, up]) :
    ∃ e b, EGNA lib.fl lib.net lib.name
        { base := { sizeGen := a.sizeGen, maxIter := a.maxIter, deadIter := a.deadIter
                    nVars := a.nVars, alpha := a.alpha, eliteFactor := a.eliteFactor
                    parallel := false, initData := none, wNoise := some (1 / 2) }
          lower := .scalar lo, upper := .scalar up, white := none, black := none } = .ok (e, b) ∧
      SameRun Pm.net (minimize env e f ftol b ρ) (o.minimize lib.fl lib env f ftol ρ) := by
  obtain ⟨hd, p, i, hp, hi, _, rfl⟩ := Custom.new_ok h
  have hp' : p = .net (BNet.new lib.net .gaussian ((List.range a.nVars).map lib.name) none none) := by
    unfold customPm at hp
    rw [hpm] at hp
    exact (Except.ok.inj hp).symm
  obtain ⟨u, hu, hi'⟩ : ∃ u, UniformInit.new a.nVars (.scalar lo) (.scalar up) = .ok u ∧
      i = .uniform u := by
    unfold customInit at hi
    rw [hin, hb] at hi
    exact ⟨_, rfl, (Except.ok.inj hi).symm⟩
  set cfg : NetCfg K L :=
    { base := { sizeGen := a.sizeGen, maxIter := a.maxIter, deadIter := a.deadIter
                nVars := a.nVars, alpha := a.alpha, eliteFactor := a.eliteFactor
                parallel := false, initData := none, wNoise := some (1 / 2) }
      lower := .scalar lo, upper := .scalar up, white := none, black := none } with hcfg
  obtain ⟨e, he⟩ := (mkEda_isOk (fl := lib.fl) (cfg := cfg.base)
    (init := uniformInitSample lib.fl cfg.base.nVars cfg.lower cfg.upper cfg.base.sizeGen)
    (learn := fun (b : BNet S L K) g _ ω => b.learn lib.net g 10 ω)
    (sample := fun b ω => b.sample lib.net cfg.base.sizeGen ω)).2
    ⟨hd, fun d hdd => by cases hdd⟩
  have hU : EGNA lib.fl lib.net lib.name cfg = .ok (e, BNet.new lib.net .gaussian
      ((List.range a.nVars).map lib.name) none none) := by
    unfold EGNA
    rw [he]
    dsimp only
    rw [show UniformInit.new cfg.base.nVars cfg.lower cfg.upper = .ok u from hu]
  refine ⟨e, _, hU, ?_⟩
  subst hp' hi'
  exact C90_EGNA hU ⟨rfl, rfl, rfl, rfl, rfl, rfl, rfl, rfl, rfl⟩ rfl rfl hu

/-- **C90** not `UMDAd`: with its model and its initializer every run of `EDACustom` of at
least two generations raises (the noise cannot be added to the integer individuals), while `UMDAd`
with the same settings succeeds. -/
theorem C90_UMDAd_raises [LawfulCost C] [UniformCost C] (hv : env.Valid) {cfg : UMDAdCfg K}
    (hw : cfg.WF) (hs : SameSettings o cfg.base) (hlu : cfg.lower < cfg.upper)
    (hdead : o.deadIter ≤ o.maxIter) (hmax : 2 ≤ o.maxIter) (hsize : 1 ≤ o.sizeGen)
    (htr : 1 ≤ selLen lib.fl o.sizeGen o.alpha) (hnum : ∀ k r, IsNum (f k r))
    (hp : ∃ b, UniBin.new cfg.base.nVars cfg.upper cfg.lower = .ok b ∧ o.slots.pm = some (.bin b))
    (hi : o.slots.init = some (.bin (umdadInit cfg))) :
    (∃ e b res s, UMDAd lib.fl cfg = .ok (e, b) ∧ minimize env e f ftol b ρ = .ok (res, s)) ∧
      o.minimize lib.fl lib env f ftol ρ = .error .ufuncType := by
  constructor
  · obtain ⟨e, b, h1, res, s, h2⟩ := C53_UMDAd_never_raises (fl := lib.fl) (ftol := ftol) (ρ := ρ) hv hw
      (by rw [hs.deadIter, hs.maxIter]; exact hdead) hlu (fun d hd => by rw [hs.initData] at hd; cases hd)
      (by rw [hs.sizeGen]; exact hsize) (by rw [hs.parallel]; intro hc; cases hc)
      (by rw [hs.sizeGen, hs.alpha]; exact htr) hnum
    exact ⟨e, b, res, s, h1, h2⟩
  · obtain ⟨b, _, hp⟩ := hp
    obtain ⟨hip, hin⟩ := umdadInit_length hw
    obtain ⟨e, he⟩ := (mkEda_isOk (fl := lib.fl) (cfg := o.base)
      (init := fun ω => (Ini.bin (umdadInit cfg)).sample lib o.sizeGen ω)
      (learn := fun (p : Pm S L K) g _ ω => p.learn lib g ω)
      (sample := fun p ω => p.sample lib o.sizeGen ω)).2 ⟨hdead, fun d hdd => by cases hdd⟩
    have hr : o.minimize lib.fl lib env f ftol ρ = minimize env e f ftol (.bin b) ρ := by
      unfold Custom.minimize
      rw [hp, hi]
      dsimp only
      rw [show o.eda lib.fl lib (.bin (umdadInit cfg)) = .ok e from he]
    rw [hr]
    have hm := mkEda_ok he
    have hinit := hm.initNone rfl
    have hsm := UniBin.sample_of_length (ω := ρ.init) (size := o.sizeGen) (hip.trans hin.symm) (by omega)
    have hg0 := (congrFun hinit ρ.init).trans hsm
    obtain ⟨s0, h0⟩ := start_isOk (f := f) (pm := Pm.bin b) (m := 1) hv hnum le_rfl
      (by rw [hm.parallel]; intro hc; cases hc) hg0 (by simp; omega)
    have hn0 : o.base.noiseAttr = 1 / 2 := by
      unfold BaseCfg.noiseAttr Custom.base
      dsimp only
      rw [if_neg (by norm_num)]
    have hpos : (0 : K) < 1 / 2 := by norm_num
    have hnoise : e.mkNoise ρ.noise = .ok
        (addNoise (.matrix (selLen lib.fl o.sizeGen o.alpha).toNat o.slots.nVars ρ.noise)) := by
      rw [hm.mkNoise, hn0]
      simp only [mkWhiteNoise, if_neg hpos.ne', if_neg (show ¬ ((1 : K) / 2 = -1) by
        intro h; rw [h] at hpos; linarith), if_neg (not_lt.2 hpos.le)]
      rw [if_neg (by show ¬ selLen lib.fl o.sizeGen o.alpha < 0; omega)]
      rfl
    refine minimize_noise_error (by rw [hm.maxIter]; exact hmax) h0 hnoise ?_
    intro s1 ht
    obtain ⟨_, _, _, _, _, hs0⟩ := start_ok h0
    have hgen : s0.gen.dt = .int := by
      have := hs0.init; rw [hg0] at this; rw [← Except.ok.inj this]
    obtain ⟨_, _, _, hd1, _⟩ := truncation_shape ht
    have hint : s1.gen.dt = .int := by
      rw [hd1, hs0.elite]
      simp only [hgen]
      rfl
    unfold addNoise
    simp only [hint]

end c90

/-! ### Concrete cases -/

/-- `EDACustom(4, 3, 3, 1, 1/2, 1/2, False, pm=1, init=4, bounds=(0, 1))` runs like `UMDAc`; both
runs succeed. -/
example : ∃ o e b, Custom.new Ex.clib { Ex.cargs with pm := 1, bounds := [0, 1] } Ex.cdraws = .ok o ∧
    SameRun Pm.gauss (minimize Ex.env (e : Eda (List ℚ) (UniGauss ℚ) (Draws ℚ)) Ex.cost 0 b Ex.rand)
      (o.minimize id Ex.clib Ex.env Ex.cost 0 Ex.rand) ∧
    ∃ res s, minimize Ex.env e Ex.cost 0 b Ex.rand = .ok (res, s) := by
  have hok : CustomOk { Ex.cargs with pm := 1, bounds := [0, 1] } 0 1 :=
    { Ex.cargs_ok with
      bounds := rfl
      pm := by decide
      bin := by intro h; exact absurd h (by decide)
      gauss := by intro h; exact absurd h (by decide)
      multi := by intro h; exact absurd h (by decide) }
  obtain ⟨o, ho⟩ := C19_constructs (lib := Ex.clib) (ω := Ex.cdraws) hok
  obtain ⟨e, b, _, h2⟩ := C90_new_UMDAc (env := Ex.env) (f := Ex.cost) (ftol := 0) (ρ := Ex.rand) ho
    rfl rfl rfl
  refine ⟨o, e, b, ho, h2, ?_⟩
  have hr : ((Custom.new Ex.clib { Ex.cargs with pm := 1, bounds := [0, 1] } Ex.cdraws).bind
      (fun o => o.minimize id Ex.clib Ex.env Ex.cost 0 Ex.rand)).toOption.isSome = true := by
    decide +kernel
  rw [ho] at hr
  obtain ⟨x, hx⟩ := Ex.ok_of_isSome (x := o.minimize id Ex.clib Ex.env Ex.cost 0 Ex.rand) hr
  rw [show Ex.clib.fl = id from rfl, hx] at h2
  revert h2
  cases minimize Ex.env e Ex.cost 0 b Ex.rand with
  | error err => exact fun h => h.elim
  | ok z => exact fun _ => ⟨z.1, z.2, rfl⟩

/-- An `EDACustom` object whose model and initializer were assigned. -/
def Ex.assigned (alpha : ℚ) (p : Pm (List (List ℚ)) ℕ ℚ) (i : Ini ℚ) : Custom (List (List ℚ)) ℕ ℚ :=
  { sizeGen := 4, maxIter := 3, deadIter := 3, alpha := alpha, eliteFactor := 1 / 2, disp := false
    bounds := [0, 1], slots := { nVars := 1, pm := some p, init := some i } }

/-- The arguments of `PBIL` and `UMDAc`. -/
def Ex.pbilArgs : UMDAcCfg ℚ :=
  { base := { sizeGen := 4, maxIter := 3, deadIter := 3, nVars := 1, alpha := 1 / 4, eliteFactor := 1 / 2
              parallel := false, initData := none, wNoise := some (1 / 2) }
    lower := .scalar 0, upper := .scalar 1, vector := none, lowerFactor := 1 / 10 }

/-- C90: `PBIL` with learning rate 1/4 and `EDACustom` with `AdaptUniGauss(alpha=1/4)`. -/
example : ∃ e b u, PBIL id id Ex.pbilArgs = .ok (e, b) ∧
    UniformInit.new 1 (.scalar (0 : ℚ)) (.scalar 1) = .ok u ∧
    SameRun (Pm.adapt (1 / 4)) (minimize Ex.env e Ex.cost 0 b Ex.rand)
      ((Ex.assigned 1 (.adapt (1 / 4) (UniGauss.new 1 (1 / 10))) (.uniform u)).minimize id Ex.clib Ex.env
        Ex.cost 0 Ex.rand) := by
  obtain ⟨⟨e, b⟩, h⟩ := Ex.ok_of_isSome (x := PBIL id id Ex.pbilArgs) (by decide +kernel)
  exact ⟨e, b, _, h, rfl, C90_PBIL (lib := Ex.clib) (cfg := Ex.pbilArgs) h
    ⟨rfl, rfl, rfl, rfl, rfl, rfl, rfl, rfl, rfl⟩ rfl rfl (.uniform rfl rfl)⟩

/-- The arguments of `UMDAd`. -/
def Ex.umdadArgs : UMDAdCfg ℚ :=
  { base := { Ex.pbilArgs.base with alpha := 1 / 2 }, vector := none, lower := 1 / 5, upper := 4 / 5 }

/-- C90: `UMDAd` runs, `EDACustom` with its parts does not. -/
example : ∃ e b p, UMDAd id Ex.umdadArgs = .ok (e, b) ∧ UniBin.new 1 (4 / 5) (1 / 5 : ℚ) = .ok p ∧
    (∃ res s, minimize Ex.env e Ex.cost 0 b Ex.rand = .ok (res, s)) ∧
    (Ex.assigned (1 / 2) (.bin p) (.bin (umdadInit Ex.umdadArgs))).minimize id Ex.clib Ex.env Ex.cost 0
      Ex.rand = .error .ufuncType := by
  obtain ⟨⟨e, b, res, s, h1, h2⟩, h3⟩ := C90_UMDAd_raises (lib := Ex.clib) (ftol := 0) (ρ := Ex.rand)
    (cfg := Ex.umdadArgs)
    (o := Ex.assigned (1 / 2) (.bin ⟨1, 1 / 5, 4 / 5, [0]⟩) (.bin (umdadInit Ex.umdadArgs)))
    (f := Ex.cost) Ex.env_valid ⟨fun v hv => (by cases hv), fun d hd => (by cases hd)⟩
    ⟨rfl, rfl, rfl, rfl, rfl, rfl, rfl, rfl, rfl⟩ (by norm_num [Ex.umdadArgs]) (by decide) (by decide)
    (by decide) (by decide +kernel) (fun _ _ => field_isNum _)
    ⟨_, by simp [UniBin.new, Ex.umdadArgs, Ex.pbilArgs]; norm_num, rfl⟩ rfl
  exact ⟨e, b, _, h1, by simp [UniBin.new]; norm_num, ⟨res, s, h2⟩, h3⟩

end Verif
