/-
Facts about `EDACustom`: construction, runs.
-/
import Verif.Spec.Custom
import Verif.Props.Archive
import Verif.Props.Gauss
import Verif.Props.MultiGauss
import Verif.Props.Binary

set_option linter.unusedSectionVars false

namespace Verif

open Spec PyCost

variable {K : Type} [Field K] [LinearOrder K] [IsStrictOrderedRing K] [FloorRing K]

section mixed

variable {σ C : Type} [PyCost C]
variable {fl : K → K} {cfg : BaseCfg K (List K)}
variable {init : Draws K → Except PyErr (Gen (List K))}
variable {learn : σ → Gen (List K) → Gen (List K) → Draws K → Except PyErr σ}
variable {sample : σ → Draws K → Except PyErr (Gen (List K))} {e : Eda (List K) σ (Draws K)}
variable {env : Env C} {f : ℕ → List K → C} {ftol : C} {pm : σ} {ρ : Rand (Draws K)}

/-- A rectangular array of numbers. -/
structure NumAny (n : ℕ) (g : Gen (List K)) : Prop where
  cols : g.cols = n
  rect : Rect n g.rows
  dt : g.dt ≠ .object

/-- A rectangular array of floats. -/
structure NumFloat (n : ℕ) (g : Gen (List K)) : Prop where
  cols : g.cols = n
  rect : Rect n g.rows
  dt : g.dt = .float

theorem NumFloat.any {n : ℕ} {g : Gen (List K)} (h : NumFloat n g) : NumAny n g :=
  ⟨h.cols, h.rect, by rw [h.dt]; simp⟩

/-- Runs with noise never raise if the first generation is a float array, even if the sampled
generations are integer arrays: the elite stays a float array. -/
theorem mkEda_noRaise_mixed (cpu : ℕ)
    (he : mkEda fl cfg init learn sample = .ok e) {m : ℕ} (hm : 1 ≤ m)
    (hpar : cfg.parallel = false) (htr : 1 ≤ selLen fl cfg.sizeGen cfg.alpha)
    (hpos : 0 < cfg.noiseAttr) (hle : selLen fl cfg.sizeGen cfg.alpha ≤ m)
    (hdata : cfg.initData = none)
    (hinit : ∃ g, init ρ.init = .ok g ∧ NumFloat cfg.nVars g ∧ m ≤ g.rows.length)
    {P : σ → Prop}
    (hlearn : ∀ pm (g el : Gen (List K)) t, P pm → g.cols = cfg.nVars → Rect cfg.nVars g.rows →
      g.rows ≠ [] → min (selLen fl cfg.sizeGen cfg.alpha).toNat m ≤ g.rows.length →
      ∃ pm', learn pm g el (ρ.learn t) = .ok pm' ∧ P pm')
    (hsample : ∀ pm t, P pm → ∃ g, sample pm (ρ.sample t) = .ok g ∧ NumAny cfg.nVars g ∧
      m ≤ g.rows.length) :
    NoRaiseG cpu e ρ m (NumAny cfg.nVars) (NumFloat cfg.nVars) (NumFloat cfg.nVars)
      (NumTrain fl cfg m) P := by
  have hmk := mkEda_ok he
  constructor
  · exact hm
  · rw [hmk.truncLen]; exact htr
  · rw [hmk.parallel, hpar]; simp
  · rw [hmk.initNone hdata]
    obtain ⟨g, h1, h2, h3⟩ := hinit
    refine ⟨g, h1, h2.any, ?_, h3⟩
    intro r hr
    exact ⟨h2.cols, fun r' hr' => h2.rect r' (by rw [List.mem_singleton.1 hr']; exact hr), h2.dt⟩
  · intro a b ha hb
    refine ⟨by rw [ha.cols, hb.cols], fun rows hrows => ?_⟩
    have : NumFloat cfg.nVars { dt := a.dt.promote b.dt, cols := a.cols, rows := rows } := by
      refine ⟨ha.cols, fun r hr => ?_, ?_⟩
      · rcases hrows r hr with h | h
        · exact ha.rect r h
        · exact hb.rect r h
      · have h1 := ha.dt
        simp only [hb.dt]
        revert h1
        cases a.dt <;> simp [DType.promote]
    exact ⟨this, this⟩
  · rw [hmk.mkNoise, hmk.truncLen]
    have hn0 : cfg.noiseAttr ≠ 0 := ne_of_gt hpos
    have hm1 : cfg.noiseAttr ≠ -1 := by intro h; rw [h] at hpos; linarith
    refine ⟨addNoise (.matrix (selLen fl cfg.sizeGen cfg.alpha).toNat cfg.nVars ρ.noise), ?_, ?_⟩
    · simp only [mkWhiteNoise, if_neg hn0, if_neg hm1, if_neg (not_lt.2 hpos.le)]
      rw [if_neg (by omega)]
    · rintro g hG hne ⟨k, hk, hlen⟩
      have hlen' : g.rows.length = (selLen fl cfg.sizeGen cfg.alpha).toNat := by
        rw [hlen]; omega
      obtain ⟨g', h1, h2, h3, h4, h5⟩ := addNoise_matrix (m := ρ.noise) hG.dt hG.cols
        hlen' hG.rect
      refine ⟨g', h1, h2, h4, ?_, ?_⟩
      · intro h; rw [h] at h5; simp at h5; exact hne (List.length_eq_zero_iff.1 h5.symm)
      · rw [h5, hlen']; exact min_le_left _ _
  · rintro pm g el t hp ⟨h1, h2, h3, h4⟩ hel hk
    rw [hmk.updatePm]
    exact hlearn pm g el t hp h1 h2 h3 h4
  · intro pm t hp _
    rw [hmk.sample]
    exact hsample pm t hp

end mixed

section custom

variable {S L : Type} [DecidableEq L] {lib : Libs S L K} {a : CustomArgs K} {ω : CustomDraws K}
variable {o : Custom S L K}

theorem boundAt_ok {bounds : List K} {i : ℕ} {x : K} :
    boundAt bounds i = .ok x ↔ bounds[i]? = some x := by
  unfold boundAt
  cases h : bounds[i]? <;> simp

/-- The models built by the constructor have the right size and class. -/
theorem customPm_ok {p : Pm S L K} (h : customPm lib a = .ok p) : p.len = a.nVars ∧
    p.cls.id = a.pm ∧ 1 ≤ a.pm ∧ a.pm ≤ 4 := by
  unfold customPm at h
  split at h
  · rename_i h1
    cases hb : boundAt a.bounds 0 <;> rw [hb] at h <;> simp only [Except.map, Except.ok.injEq, reduceCtorEq] at h
    subst h
    exact ⟨rfl, h1.symm, by omega, by omega⟩
  split at h
  · rename_i h1
    split at h
    · rename_i lo up _ _
      cases hb : UniBin.new a.nVars up lo <;> rw [hb] at h <;> simp only [Except.map, Except.ok.injEq, reduceCtorEq] at h
      subst h
      obtain ⟨_, rfl⟩ := UniBin.new_ok hb
      exact ⟨rfl, h1.symm, by omega, by omega⟩
    · cases h
    · cases h
  split at h
  · rename_i h1
    split at h
    · rw [← Except.ok.inj h]
      exact ⟨rfl, h1.symm, by omega, by omega⟩
    · cases h
    · cases h
  split at h
  · rename_i h1
    rw [← Except.ok.inj h]
    exact ⟨by simp [Pm.len, BNet.new], h1.symm, by omega, by omega⟩
  · cases h

theorem uniGaussInit_good {n : ℕ} {lb hb : K} {k : ℕ → ℕ → ℕ} {b : UniGauss K}
    (h : uniGaussInit n [] [] lb hb k = .ok b) : b.Good n lb := by
  unfold uniGaussInit at h
  simp only [List.length_nil, ne_eq, not_true_eq_false, if_false, if_true] at h
  split at h
  · simp at h
  rename_i m hm
  split at h
  · simp at h
  rename_i s hs
  simp only [Except.ok.injEq] at h
  subst h
  obtain ⟨l1, _⟩ := choice_ok hm
  obtain ⟨l2, m2⟩ := choice_ok hs
  exact ⟨rfl, rfl, l1, l2, fun x hx => (abs_nonneg _).trans (arange_mem (m2 x hx)).1⟩

/-- The initializers built by the constructor. -/
inductive GoodIni (n : ℕ) : Ini K → ℤ → Prop
  | gauss {b : UniGauss K} {lb : K} : b.Good n lb → GoodIni n (.gauss b) 1
  | bin : GoodIni n (.bin (uniBinInit n [])) 2
  | multi {b : MultiGauss K} : b.Good n → GoodIni n (.multi b) 3
  | uniform {lo up : K} : GoodIni n (.uniform ⟨n, .scalar lo, .scalar up⟩) 4

theorem customInit_ok {i : Ini K} {k : ℕ → ℕ → ℕ} (h : customInit a k = .ok i) :
    GoodIni a.nVars i a.init := by
  unfold customInit at h
  split at h
  · rename_i h1
    split at h
    · rename_i lo _
      cases hb : uniGaussInit a.nVars [] [] lo 100 k <;> rw [hb] at h <;>
        simp only [Except.map, Except.ok.injEq, reduceCtorEq] at h
      subst h
      rw [h1]
      exact .gauss (uniGaussInit_good hb)
    · cases h
  split at h
  · rename_i h1
    rw [← Except.ok.inj h, h1]
    exact .bin
  split at h
  · rename_i h1
    split at h
    · rename_i lo up _ _
      cases hb : multiGaussInit a.nVars [] [] lo up k <;> rw [hb] at h <;>
        simp only [Except.map, Except.ok.injEq, reduceCtorEq] at h
      subst h
      rw [h1]
      exact .multi (C33_entries_partial hb).1
    · cases h
    · cases h
  split at h
  · rename_i h1
    split at h
    · rename_i lo up _ _
      cases hb : UniformInit.new a.nVars (.scalar lo) (.scalar up) <;> rw [hb] at h <;>
        simp only [Except.map, Except.ok.injEq, reduceCtorEq] at h
      subst h
      obtain ⟨_, _, rfl⟩ := UniformInit.new_ok hb
      rw [h1]
      exact .uniform
    · cases h
    · cases h
  · cases h

theorem GoodIni.nVars {n : ℕ} {i : Ini K} {z : ℤ} (h : GoodIni n i z) : i.nVars = n := by
  cases h with
  | gauss h => exact h.n
  | bin => rfl
  | multi h => exact h.n
  | uniform => rfl

theorem GoodIni.id {n : ℕ} {i : Ini K} {z : ℤ} (h : GoodIni n i z) : i.cls.id = z ∧ 1 ≤ z ∧ z ≤ 4 := by
  cases h <;> exact ⟨rfl, by norm_num, by norm_num⟩

/-- Sampling a constructed initializer. -/
theorem GoodIni.sample {n : ℕ} {i : Ini K} {z : ℤ} (h : GoodIni n i z) {size : ℤ} (hs : 0 ≤ size)
    (ω : Draws K) : ∃ g, i.sample lib size ω = .ok g ∧ (g.rows.length : ℤ) = size ∧
      NumAny n g ∧ g.dt = if z = 2 then .int else .float := by
  cases h with
  | @gauss b lb h =>
    refine ⟨_, UniGauss.sample_eq h hs ω, by simp; omega, ⟨rfl, ?_, by simp⟩, rfl⟩
    intro r hr
    obtain ⟨i, _, rfl⟩ := List.mem_map.1 hr
    simp
  | bin =>
    refine ⟨_, UniBin.sample_of_length (b := uniBinInit n []) (by simp [uniBinInit]) hs, by simp; omega,
      ⟨rfl, ?_, by simp⟩, rfl⟩
    intro r hr
    obtain ⟨i, _, rfl⟩ := List.mem_map.1 hr
    exact binRow_length _ _ _ _
  | multi h =>
    refine ⟨_, MultiGauss.sample_eq h hs ω, by simp; omega, ⟨rfl, ?_, by simp⟩, rfl⟩
    intro r hr
    obtain ⟨i, _, rfl⟩ := List.mem_map.1 hr
    simp
  | @uniform lo up =>
    obtain ⟨g, hg⟩ := UniformInit.sample_isOk (u := ⟨n, .scalar lo, .scalar up⟩) (size := size) ω rfl rfl
      hs rfl rfl
    obtain ⟨h1, h2, h3, h4⟩ := UniformInit.sample_shape hg
    exact ⟨g, hg, h4, ⟨h2, h3, by rw [h1]; simp⟩, h1⟩

theorem GoodIni.size {n : ℕ} {i : Ini K} {z : ℤ} (h : GoodIni n i z) {size : ℤ} {ω : Draws K}
    {g : Gen (List K)} (hsm : i.sample lib size ω = .ok g) : 0 ≤ size := by
  by_contra hneg
  cases h with
  | gauss hb =>
    have := (UniGauss.sample_shape hsm).2.2.2
    omega
  | bin => have := (UniBin.sample_ok hsm).1; omega
  | multi hb => have := (MultiGauss.sample_shape hsm).2.2.2; omega
  | uniform => have := (UniformInit.sample_shape hsm).2.2.2; omega

/-- What `EDACustom(...)` returns. -/
theorem Custom.new_ok (h : Custom.new lib a ω = .ok o) : a.deadIter ≤ a.maxIter ∧
    ∃ p i, customPm lib a = .ok p ∧ customInit a ω.choice = .ok i ∧ 0 ≤ a.sizeGen ∧
      o = { sizeGen := a.sizeGen
            maxIter := a.maxIter
            deadIter := a.deadIter
            alpha := a.alpha
            eliteFactor := a.eliteFactor
            disp := a.disp
            bounds := a.bounds
            slots := { nVars := a.nVars, pm := some p, init := some i } } := by
  unfold Custom.new at h
  split at h
  · cases h
  rename_i hd
  split at h
  · cases h
  rename_i p hp
  have hl := (customPm_ok hp).1
  simp only [Slots.setPm, hl, ne_eq, not_true_eq_false, if_false] at h
  split at h
  · cases h
  rename_i i hi
  have hg := customInit_ok hi
  simp only [Slots.setInit, hg.nVars, ne_eq, not_true_eq_false, if_false] at h
  split at h
  · cases h
  rename_i g hsm
  refine ⟨not_not.1 hd, p, i, hp, hi, ?_, (Except.ok.inj h).symm⟩
  exact hg.size hsm

/-- When `EDACustom(...)` returns. -/
theorem Custom.new_isOk {p : Pm S L K} {i : Ini K} (hd : a.deadIter ≤ a.maxIter)
    (hp : customPm lib a = .ok p) (hi : customInit a ω.choice = .ok i) (hs : 0 ≤ a.sizeGen) :
    Custom.new lib a ω = .ok { sizeGen := a.sizeGen
                               maxIter := a.maxIter
                               deadIter := a.deadIter
                               alpha := a.alpha
                               eliteFactor := a.eliteFactor
                               disp := a.disp
                               bounds := a.bounds
                               slots := { nVars := a.nVars, pm := some p, init := some i } } := by
  unfold Custom.new
  rw [if_neg (not_not.2 hd), hp]
  have hl := (customPm_ok hp).1
  simp only [Slots.setPm, hl, ne_eq, not_true_eq_false, if_false, hi]
  have hg := customInit_ok hi
  simp only [Slots.setInit, hg.nVars, ne_eq, not_true_eq_false, if_false]
  obtain ⟨g, hsm, _⟩ := hg.sample (lib := lib) hs ω.sample
  rw [hsm]

/-- The draws of the constructor do not decide whether it succeeds. -/
theorem customInit_draws {k k' : ℕ → ℕ → ℕ} {i : Ini K} (h : customInit a k = .ok i) :
    ∃ i', customInit a k' = .ok i' := by
  have hch : ∀ (l : List K) (n : ℕ) (k k' : ℕ → ℕ) (x : List K), choice l n k = .ok x →
      ∃ x', choice l n k' = .ok x' := by
    intro l n k k' x hx
    exact choice_isOk.2 (choice_isOk.1 ⟨x, hx⟩)
  unfold customInit at h ⊢
  by_cases h1 : a.init = 1
  · rw [if_pos h1] at h ⊢
    cases hb : boundAt a.bounds 0 with
    | error err => rw [hb] at h; cases h
    | ok lo =>
      rw [hb] at h
      dsimp only at h ⊢
      unfold uniGaussInit at h ⊢
      simp only [List.length_nil, ne_eq, not_true_eq_false, if_false, if_true] at h ⊢
      cases c1 : choice (arange lo (100 + 1)) a.nVars (k 0) with
      | error err => rw [c1] at h; cases h
      | ok m =>
        rw [c1] at h
        dsimp only at h
        cases c2 : choice (arange |lo / 4| |100 / 2|) a.nVars (k 1) with
        | error err => rw [c2] at h; cases h
        | ok s =>
          obtain ⟨m', hm'⟩ := hch _ _ _ (k' 0) _ c1
          obtain ⟨s', hs'⟩ := hch _ _ _ (k' 1) _ c2
          rw [hm']
          dsimp only
          rw [hs']
          exact ⟨_, rfl⟩
  rw [if_neg h1] at h ⊢
  by_cases h2 : a.init = 2
  · rw [if_pos h2]; exact ⟨_, rfl⟩
  rw [if_neg h2] at h ⊢
  by_cases h3 : a.init = 3
  · rw [if_pos h3] at h ⊢
    cases hb : boundAt a.bounds 0 with
    | error err => rw [hb] at h; cases h
    | ok lo =>
      cases hb' : boundAt a.bounds 1 with
      | error err => rw [hb, hb'] at h; cases h
      | ok up =>
        rw [hb, hb'] at h
        dsimp only at h ⊢
        unfold multiGaussInit at h ⊢
        simp only [List.length_nil, ne_eq, not_true_eq_false, if_false, if_true] at h ⊢
        cases c1 : choice (arange lo (up + 1)) a.nVars (k 0) with
        | error err => rw [c1] at h; cases h
        | ok m =>
          rw [c1] at h
          dsimp only at h
          cases c2 : choice (arange lo (up + 1)) (a.nVars * a.nVars) (k 1) with
          | error err => rw [c2] at h; cases h
          | ok s =>
            obtain ⟨m', hm'⟩ := hch _ _ _ (k' 0) _ c1
            obtain ⟨s', hs'⟩ := hch _ _ _ (k' 1) _ c2
            rw [hm']
            dsimp only
            rw [hs']
            exact ⟨_, rfl⟩
  rw [if_neg h3] at h ⊢
  exact ⟨i, h⟩

end custom

end Verif
