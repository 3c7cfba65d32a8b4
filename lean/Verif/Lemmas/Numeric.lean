/-
Numeric algorithms: runs that never raise, number of evaluations, shapes.
-/
import Verif.Lemmas.UniBin
import Verif.Lemmas.Loop

set_option linter.unusedSectionVars false

namespace Verif

open Spec PyCost

variable {K : Type} [Field K] [LinearOrder K] [IsStrictOrderedRing K] [FloorRing K] {σ C : Type} [PyCost C]
variable {fl : K → K} {cfg : BaseCfg K (List K)}
variable {init : Draws K → Except PyErr (Gen (List K))}
variable {learn : σ → Gen (List K) → Gen (List K) → Draws K → Except PyErr σ}
variable {sample : σ → Draws K → Except PyErr (Gen (List K))} {e : Eda (List K) σ (Draws K)}
variable {env : Env C} {f : ℕ → List K → C} {ftol : C} {pm : σ} {ρ : Rand (Draws K)}

/-- A rectangular numeric array with the right number of columns, to which the configured noise can
be added. -/
structure NumGen (cfg : BaseCfg K (List K)) (g : Gen (List K)) : Prop where
  cols : g.cols = cfg.nVars
  rect : Rect cfg.nVars g.rows
  dt : g.dt ≠ .object
  fl : cfg.noiseAttr ≠ 0 → g.dt = .float

theorem addNoise_zero {g : Gen (List K)} (h : g.dt ≠ .object) : addNoise (.zero : Noise K) g = .ok g := by
  unfold addNoise
  cases hd : g.dt <;> simp_all

theorem addNoise_matrix {g : Gen (List K)} {n t : ℕ} {m : ℕ → ℕ → K} (hd : g.dt = .float)
    (hc : g.cols = n) (ht : g.rows.length = t) (hr : Rect n g.rows) :
    ∃ g', addNoise (.matrix t n m) g = .ok g' ∧ g'.cols = n ∧ g'.dt = .float ∧ Rect n g'.rows ∧
      g'.rows.length = g.rows.length := by
  unfold addNoise
  simp only [hd]
  rw [if_pos ⟨.inl ht.symm, .inl hc.symm⟩]
  refine ⟨_, rfl, hc, rfl, ?_, by simp⟩
  intro r hr'
  simp only [List.mem_mapIdx] at hr'
  obtain ⟨i, hi, rfl⟩ := hr'
  simp only [addNoiseRow, List.length_mapIdx]
  exact hr _ (List.getElem_mem hi)

/-- A training set: rectangular, non-empty, at least `min truncation_length m` rows. -/
def NumTrain (fl : K → K) (cfg : BaseCfg K (List K)) (m : ℕ) (g : Gen (List K)) : Prop :=
  g.cols = cfg.nVars ∧ Rect cfg.nVars g.rows ∧ g.rows ≠ [] ∧
    min (selLen fl cfg.sizeGen cfg.alpha).toNat m ≤ g.rows.length

/-- Runs of a numeric algorithm never raise if its generations have at least `m` rows, the training
data fits the noise and the model can always be learned and sampled (with the number of elite rows). -/
theorem mkEda_noRaiseE (cpu : ℕ)
    (he : mkEda fl cfg init learn sample = .ok e) {m : ℕ} (hm : 1 ≤ m)
    (hcpu : cfg.parallel = true → cpu ≤ m) (htr : 1 ≤ selLen fl cfg.sizeGen cfg.alpha)
    (hnoise : cfg.noiseAttr = 0 ∨ (0 < cfg.noiseAttr ∧ selLen fl cfg.sizeGen cfg.alpha ≤ m))
    (hdata : ∀ d, cfg.initData = some d → NumGen cfg d ∧ m ≤ d.rows.length)
    (hinit : cfg.initData = none → ∃ g, init ρ.init = .ok g ∧ NumGen cfg g ∧ m ≤ g.rows.length)
    {P : σ → Prop}
    (hlearn : ∀ pm (g el : Gen (List K)) t, P pm → g.cols = cfg.nVars → Rect cfg.nVars g.rows →
      g.rows ≠ [] → min (selLen fl cfg.sizeGen cfg.alpha).toNat m ≤ g.rows.length → NumGen cfg el →
      (∃ k, m ≤ k ∧ el.rows.length = sliceLen k (selLen fl cfg.sizeGen cfg.eliteFactor)) →
      ∃ pm', learn pm g el (ρ.learn t) = .ok pm' ∧ P pm')
    (hsample : ∀ pm t, P pm → ∃ g, sample pm (ρ.sample t) = .ok g ∧ NumGen cfg g ∧ m ≤ g.rows.length) :
    NoRaise cpu e ρ m (NumGen cfg) (NumTrain fl cfg m) P := by
  have hmk := mkEda_ok he
  constructor
  · exact hm
  · rw [hmk.truncLen]; exact htr
  · rw [hmk.parallel]; exact hcpu
  · cases hd : cfg.initData with
    | none => rw [hmk.initNone hd]; exact hinit hd
    | some d => rw [(hmk.initSome d hd).2]; exact ⟨d, rfl, hdata d hd⟩
  · intro g rows hG hsub
    exact ⟨hG.cols, fun r hr => hG.rect r (hsub r hr), hG.dt, hG.fl⟩
  · intro a b ha hb
    refine ⟨by rw [ha.cols, hb.cols], ha.cols, ?_, ?_, ?_⟩
    · intro r hr
      rcases List.mem_append.1 hr with h | h
      · exact ha.rect r h
      · exact hb.rect r h
    · have h1 := ha.dt; have h2 := hb.dt
      revert h1 h2
      simp only
      cases a.dt <;> cases b.dt <;> simp [DType.promote]
    · intro hn
      simp only [ha.fl hn, hb.fl hn, DType.promote]
  · rw [hmk.mkNoise, hmk.truncLen]
    rcases hnoise with h0 | ⟨hpos, hle⟩
    · refine ⟨addNoise .zero, by simp [mkWhiteNoise, h0], ?_⟩
      rintro g hG hne ⟨k, hk, hlen⟩
      refine ⟨g, addNoise_zero hG.dt, hG.cols, hG.rect, hne, ?_⟩
      rw [hlen]; exact min_le_min_left _ hk
    · have hn0 : cfg.noiseAttr ≠ 0 := ne_of_gt hpos
      by_cases hm1 : cfg.noiseAttr = -1
      · exfalso

        rw [hm1] at hpos; linarith
      · refine ⟨addNoise (.matrix (selLen fl cfg.sizeGen cfg.alpha).toNat cfg.nVars ρ.noise), ?_, ?_⟩
        · simp only [mkWhiteNoise, if_neg hn0, if_neg hm1, if_neg (not_lt.2 hpos.le)]
          rw [if_neg (by omega)]
        · rintro g hG hne ⟨k, hk, hlen⟩
          have hlen' : g.rows.length = (selLen fl cfg.sizeGen cfg.alpha).toNat := by
            rw [hlen]; omega
          obtain ⟨g', h1, h2, h3, h4, h5⟩ := addNoise_matrix (m := ρ.noise) (hG.fl hn0) hG.cols
            hlen' hG.rect
          refine ⟨g', h1, h2, h4, ?_, ?_⟩
          · intro h; rw [h] at h5; simp at h5; exact hne (List.length_eq_zero_iff.1 h5.symm)
          · rw [h5, hlen']; exact min_le_left _ _
  · rintro pm g el t hp ⟨h1, h2, h3, h4⟩ hel hk
    rw [hmk.updatePm]
    rw [hmk.eliteLen] at hk
    exact hlearn pm g el t hp h1 h2 h3 h4 hel hk
  · intro pm t hp _
    rw [hmk.sample]
    exact hsample pm t hp

/-- Runs of a numeric algorithm never raise if its generations have at least `m` rows, the training
data fits the noise and the model can always be learned and sampled. -/
theorem mkEda_noRaise (cpu : ℕ)
    (he : mkEda fl cfg init learn sample = .ok e) {m : ℕ} (hm : 1 ≤ m)
    (hcpu : cfg.parallel = true → cpu ≤ m) (htr : 1 ≤ selLen fl cfg.sizeGen cfg.alpha)
    (hnoise : cfg.noiseAttr = 0 ∨ (0 < cfg.noiseAttr ∧ selLen fl cfg.sizeGen cfg.alpha ≤ m))
    (hdata : ∀ d, cfg.initData = some d → NumGen cfg d ∧ m ≤ d.rows.length)
    (hinit : cfg.initData = none → ∃ g, init ρ.init = .ok g ∧ NumGen cfg g ∧ m ≤ g.rows.length)
    {P : σ → Prop}
    (hlearn : ∀ pm (g el : Gen (List K)) t, P pm → g.cols = cfg.nVars → Rect cfg.nVars g.rows →
      g.rows ≠ [] → min (selLen fl cfg.sizeGen cfg.alpha).toNat m ≤ g.rows.length → NumGen cfg el →
      ∃ pm', learn pm g el (ρ.learn t) = .ok pm' ∧ P pm')
    (hsample : ∀ pm t, P pm → ∃ g, sample pm (ρ.sample t) = .ok g ∧ NumGen cfg g ∧ m ≤ g.rows.length) :
    NoRaise cpu e ρ m (NumGen cfg) (NumTrain fl cfg m) P :=
  mkEda_noRaiseE cpu he hm hcpu htr hnoise hdata hinit
    (fun pm g el t hp h1 h2 h3 h4 h5 _ => hlearn pm g el t hp h1 h2 h3 h4 h5) hsample

/-- `n_fev` counts the calls when all generations have `size_gen` rows (any kind of individuals). -/
theorem mkEdaG_nfev {R Ω : Type} {cfg : BaseCfg K R}
    {noise : Ω → Except PyErr (Gen R → Except PyErr (Gen R))} {init : Ω → Except PyErr (Gen R)}
    {learn : σ → Gen R → Gen R → Ω → Except PyErr σ} {sample : σ → Ω → Except PyErr (Gen R)}
    {e : Eda R σ Ω} {f : ℕ → R → C} {ρ : Rand Ω} [LawfulCost C] [UniformCost C] (hv : env.Valid)
    (he : mkEdaG fl cfg noise init learn sample = .ok e) (hd : cfg.initData = none)
    (hi : ∀ g, init ρ.init = .ok g → (g.rows.length : ℤ) = cfg.sizeGen)
    (hs : ∀ pm ω g, sample pm ω = .ok g → (g.rows.length : ℤ) = cfg.sizeGen)
    {res : EdaResult R C} {s : St R C σ}
    (hrun : minimize env e f ftol pm ρ = .ok (res, s)) : res.nFev = s.log.flatten.length := by
  have hm := mkEdaG_ok he
  have hsz : ∀ pm ω g, e.sample pm ω = .ok g → (g.rows.length : ℤ) = e.sizeGen := by
    intro pm ω g hg
    rw [hm.sample] at hg
    rw [hm.sizeGen]; exact hs _ _ _ hg
  have hi' : ∀ g, e.initGen ρ.init = .ok g → (g.rows.length : ℤ) = cfg.sizeGen := by
    intro g hg
    rw [hm.initNone hd] at hg
    exact hi _ hg
  have hnn : 0 ≤ e.sizeGen := by
    obtain ⟨s0, _, h0, _⟩ := minimize_ok hrun
    obtain ⟨_, _, _, _, _, hst⟩ := start_ok h0
    rw [hm.sizeGen, ← hi' _ hst.init]; omega
  have hi2 : ∀ g, e.initGen ρ.init = .ok g → g.rows.length = e.sizeGen.toNat := by
    intro g hg
    have := hi' g hg
    rw [hm.sizeGen]; omega
  have hc := calls_count hv hi2 hsz hrun
  obtain ⟨_, _, hh, hn⟩ := result_eq hrun
  rw [hn, hc, hh, Int.toNat_of_nonneg hnn]; ring

/-- `n_fev` counts the calls when all generations have `size_gen` rows. -/
theorem mkEda_nfev [LawfulCost C] [UniformCost C] (hv : env.Valid)
    (he : mkEda fl cfg init learn sample = .ok e) (hd : cfg.initData = none)
    (hi : ∀ ω g, init ω = .ok g → (g.rows.length : ℤ) = cfg.sizeGen)
    (hs : ∀ pm ω g, sample pm ω = .ok g → (g.rows.length : ℤ) = cfg.sizeGen)
    {res : EdaResult (List K) C} {s : St (List K) C σ}
    (hrun : minimize env e f ftol pm ρ = .ok (res, s)) : res.nFev = s.log.flatten.length :=
  mkEdaG_nfev hv he hd (hi _) hs hrun

theorem addNoise_shape {nz : Noise K} {g g' : Gen (List K)} (h : addNoise nz g = .ok g') :
    g'.cols = g.cols ∧ g'.rows.length = g.rows.length := by
  unfold addNoise at h
  split at h
  · split at h
    · simp at h
    · rw [Except.ok.inj h]; exact ⟨rfl, rfl⟩
  · split at h <;> simp at h
  · split at h
    · simp at h
    · simp at h
    · split at h
      · rw [← Except.ok.inj h]; exact ⟨rfl, by simp⟩
      · simp at h

/-- A run with at least two generations learns from a training set with the right number of columns
and at most `truncation_length` rows. -/
theorem mkEda_first_learn (hv : env.Valid) (he : mkEda fl cfg init learn sample = .ok e)
    (hmax : 2 ≤ cfg.maxIter)
    (hinit : cfg.initData = none → ∀ g, init ρ.init = .ok g → g.cols = cfg.nVars)
    {res : EdaResult (List K) C} {s : St (List K) C σ}
    (hrun : minimize env e f ftol pm ρ = .ok (res, s)) :
    ∃ noisy el pm', noisy.cols = cfg.nVars ∧ (0 ≤ selLen fl cfg.sizeGen cfg.alpha →
      (noisy.rows.length : ℤ) ≤ selLen fl cfg.sizeGen cfg.alpha) ∧
      learn pm noisy el (ρ.learn 1) = .ok pm' := by
  have hm := mkEda_ok he
  obtain ⟨s0, nz, s1, brk, h0, hn, hst⟩ := first_pass (by rw [hm.maxIter]; exact hmax) hrun
  obtain ⟨t1, noisy, ev, best, i, ind, hs⟩ := step_ok hst
  obtain ⟨_, _, _, _, _, hs0⟩ := start_ok h0
  have ha := start_aligned hv h0
  have hnz := hs.noise
  rw [hm.mkNoise] at hn
  split at hn
  · simp at hn
  rename_i nz' _
  rw [← Except.ok.inj hn] at hnz
  obtain ⟨hc, hl⟩ := addNoise_shape hnz
  obtain ⟨_, hc1, _⟩ := truncation_shape hs.trunc
  have hcols : s0.gen.cols = cfg.nVars := by
    have hi := hs0.init
    cases hd : cfg.initData with
    | none => rw [hm.initNone hd] at hi; exact hinit hd _ hi
    | some d =>
      obtain ⟨hd1, hd2⟩ := hm.initSome d hd
      rw [hd2] at hi
      rw [← Except.ok.inj hi]; exact hd1
  have hu := hs.update
  rw [hm.updatePm, hs0.pm] at hu
  refine ⟨noisy, t1.elite, s1.pm, by rw [hc, hc1, hcols], ?_, hu⟩
  intro hnn
  have := truncation_length hv ha hs.trunc (by rw [hm.truncLen]; exact hnn)
  rw [hl, this, hm.truncLen]
  omega

end Verif
