/-
C49 (selection sizes of the objects of every class) and C12 (runs without noise).
-/
import Verif.Props.Setup
import Verif.Props.Kde
import Verif.Props.Archive
import Verif.Props.Continuous
import Verif.Props.MultiGauss
import Verif.Props.Categorical

set_option linter.unusedSectionVars false

namespace Verif

open Spec PyCost

section sizes
variable {K : Type} [Field K] [LinearOrder K] [IsStrictOrderedRing K] [FloorRing K]
variable {fl sq : K → K} {S L α : Type} [DecidableEq L]

namespace Spec

/-- The object selects `int(size_gen * a)` individuals and keeps `int(size_gen * b)` as elite, with
products rounded by `fl`. -/
def Sizes {R σ Ω : Type} (fl : K → K) (e : Eda R σ Ω) (n : ℤ) (a b : K) : Prop :=
  e.sizeGen = n ∧ e.truncLen = ⌊fl (n * a)⌋ ∧ e.eliteLen = ⌊fl (n * b)⌋

/-- A rounding that is monotone and keeps 0 (the products it is applied to are non-negative). -/
structure Rounding (fl : K → K) : Prop where
  mono : Monotone fl
  zero : fl 0 = 0

end Spec

theorem selLen_floor (hfl : Rounding fl) {n : ℤ} (hn : 0 ≤ n) {a : K} (ha : 0 ≤ a) :
    selLen fl n a = ⌊fl (n * a)⌋ := by
  have hnK : (0 : K) ≤ n := by exact_mod_cast hn
  unfold selLen
  exact pyInt_nonneg (by rw [← hfl.zero]; exact hfl.mono (mul_nonneg hnK ha))

theorem sizes_of_mkG {R σ Ω : Type} {cfg : BaseCfg K R} {noise init learn sample} {e : Eda R σ Ω}
    (hfl : Rounding fl) (hn : 0 ≤ cfg.sizeGen) (ha : 0 ≤ cfg.alpha) (hb : 0 ≤ cfg.eliteFactor)
    (h : MkOkG fl cfg noise init learn sample e) :
    Sizes fl e cfg.sizeGen cfg.alpha cfg.eliteFactor :=
  ⟨h.sizeGen, h.truncLen.trans (selLen_floor hfl hn ha), h.eliteLen.trans (selLen_floor hfl hn hb)⟩

theorem sizes_of_mk {σ : Type} {cfg : BaseCfg K (List K)} {init learn sample}
    {e : Eda (List K) σ (Draws K)} (hfl : Rounding fl) (hn : 0 ≤ cfg.sizeGen) (ha : 0 ≤ cfg.alpha)
    (hb : 0 ≤ cfg.eliteFactor) (h : MkOk fl cfg init learn sample e) :
    Sizes fl e cfg.sizeGen cfg.alpha cfg.eliteFactor :=
  ⟨h.sizeGen, h.truncLen.trans (selLen_floor hfl hn ha), h.eliteLen.trans (selLen_floor hfl hn hb)⟩

/-- **C49** the numbers of selected individuals and of elite individuals of a `UMDAd` object. -/
theorem C49_UMDAd (hfl : Rounding fl) {cfg : UMDAdCfg K} {e b} (h : UMDAd fl cfg = .ok (e, b))
    (hn : 0 ≤ cfg.base.sizeGen) (ha : 0 ≤ cfg.base.alpha) (hb : 0 ≤ cfg.base.eliteFactor) :
    Sizes fl e cfg.base.sizeGen cfg.base.alpha cfg.base.eliteFactor :=
  sizes_of_mk (cfg := { cfg.base with wNoise := some 0 }) hfl hn ha hb (UMDAd_ok h).1

/-- **C49** `UMDAc`. -/
theorem C49_UMDAc (hfl : Rounding fl) {cfg : UMDAcCfg K} {e b} (h : UMDAc fl sq cfg = .ok (e, b))
    (hn : 0 ≤ cfg.base.sizeGen) (ha : 0 ≤ cfg.base.alpha) (hb : 0 ≤ cfg.base.eliteFactor) :
    Sizes fl e cfg.base.sizeGen cfg.base.alpha cfg.base.eliteFactor :=
  sizes_of_mk hfl hn ha hb (mkEda_ok (mkCont_ok h).1)

/-- **C49** `PBIL` selects the whole generation, whatever `alpha`. -/
theorem C49_PBIL (hfl : Rounding fl) {cfg : UMDAcCfg K} {e b} (h : PBIL fl sq cfg = .ok (e, b))
    (hn : 0 ≤ cfg.base.sizeGen) (hfn : fl (cfg.base.sizeGen : K) = cfg.base.sizeGen)
    (hb : 0 ≤ cfg.base.eliteFactor) :
    Sizes fl e cfg.base.sizeGen 1 cfg.base.eliteFactor ∧ e.truncLen = cfg.base.sizeGen := by
  have hs := sizes_of_mk (cfg := { cfg.base with alpha := 1 }) hfl hn zero_le_one hb
    (mkEda_ok (mkCont_ok h).1)
  exact ⟨hs, by rw [hs.2.1]; simp [hfn]⟩

/-- **C49** `EMNA`. -/
theorem C49_EMNA {fac} (hfl : Rounding fl) {cfg : EMNACfg K} {e b}
    (h : EMNA fl sq fac cfg = .ok (e, b))
    (hn : 0 ≤ cfg.base.sizeGen) (ha : 0 ≤ cfg.base.alpha) (hb : 0 ≤ cfg.base.eliteFactor) :
    Sizes fl e cfg.base.sizeGen cfg.base.alpha cfg.base.eliteFactor :=
  sizes_of_mk hfl hn ha hb (mkEda_ok (EMNA_ok h).1)

/-- **C49** `EGNA`. -/
theorem C49_EGNA {lib : NetLib S L K (Draws K)} {name : ℕ → L} (hfl : Rounding fl)
    {cfg : NetCfg K L} {e b} (h : EGNA fl lib name cfg = .ok (e, b))
    (hn : 0 ≤ cfg.base.sizeGen) (ha : 0 ≤ cfg.base.alpha) (hb : 0 ≤ cfg.base.eliteFactor) :
    Sizes fl e cfg.base.sizeGen cfg.base.alpha cfg.base.eliteFactor :=
  sizes_of_mk hfl hn ha hb (mkEda_ok (EGNA_ok h).1)

/-- **C49** `SPEDA` and `MultivariateKEDA`: the elite is as large as the selection. -/
theorem C49_archive {kind : BnType} {lib : NetLib S L K (Draws K)} {name : ℕ → L} {l : Num K}
    (hfl : Rounding fl) {cfg : NetCfg K L} {e a} (h : archEda kind fl lib name l cfg = .ok (e, a))
    (hn : 0 ≤ cfg.base.sizeGen) (ha : 0 ≤ cfg.base.alpha) :
    Sizes fl e cfg.base.sizeGen cfg.base.alpha cfg.base.alpha :=
  sizes_of_mk (cfg := { cfg.base with eliteFactor := cfg.base.alpha }) hfl hn ha ha
    (mkEda_ok (archEda_ok h).1)

/-- **C49** `UnivariateKEDA`. -/
theorem C49_UnivariateKEDA {isPD h2 fac} (hfl : Rounding fl) {cfg : KedaCfg K} {e b}
    (h : UnivariateKEDA fl isPD h2 fac cfg = .ok (e, b))
    (hn : 0 ≤ cfg.base.sizeGen) (ha : 0 ≤ cfg.base.alpha) (hb : 0 ≤ cfg.base.eliteFactor) :
    Sizes fl e cfg.base.sizeGen cfg.base.alpha cfg.base.eliteFactor :=
  sizes_of_mk hfl hn ha hb (mkEda_ok (UnivariateKEDA_ok h).1)

/-- **C49** `UMDAcat`. -/
theorem C49_UMDAcat [LinearOrder α] (hfl : Rounding fl) {cfg : CatCfg α K} {e b}
    (h : UMDAcat fl cfg = .ok (e, b))
    (hn : 0 ≤ cfg.base.sizeGen) (ha : 0 ≤ cfg.base.alpha) (hb : 0 ≤ cfg.base.eliteFactor) :
    Sizes fl e cfg.base.sizeGen cfg.base.alpha cfg.base.eliteFactor :=
  sizes_of_mkG (cfg := { cfg.base with wNoise := some (-1) }) hfl hn ha hb
    (catEda_ok (UMDAcat_ok h).1).1

/-- **C49** `EBNA` and `BOA`. -/
theorem C49_EBNA_BOA [LinearOrder α] {σ : Type} {lib : BNLib σ α K} {score : String} (hfl : Rounding fl)
    {cfg : CatCfg α K} {e b} (h : bnEda fl lib score cfg = .ok (e, b))
    (hn : 0 ≤ cfg.base.sizeGen) (ha : 0 ≤ cfg.base.alpha) (hb : 0 ≤ cfg.base.eliteFactor) :
    Sizes fl e cfg.base.sizeGen cfg.base.alpha cfg.base.eliteFactor := by
  unfold bnEda at h
  split at h
  · cases h
  rename_i e' he
  cases h
  exact sizes_of_mkG (cfg := { cfg.base with wNoise := some (-1) }) hfl hn ha hb (catEda_ok he).1

example : Ex.eda.truncLen = 2 ∧ Ex.eda.eliteLen = 1 := by
  obtain ⟨_, h1, h2⟩ := C49_UMDAd (fl := id) ⟨monotone_id, rfl⟩ Ex.cfg_mk (by decide) (by decide +kernel)
    (by decide +kernel)
  rw [h1, h2]
  norm_num [Ex.cfg]

end sizes

section noise
variable {K : Type} [Field K] [LinearOrder K] [FloorRing K] {σ : Type} {fl : K → K}
variable {cfg : BaseCfg K (List K)} {init : Draws K → Except PyErr (Gen (List K))}
variable {learn : σ → Gen (List K) → Gen (List K) → Draws K → Except PyErr σ}
variable {sample : σ → Draws K → Except PyErr (Gen (List K))} {e : Eda (List K) σ (Draws K)}
variable {C : Type} [PyCost C] {env : Env C} {f : ℕ → List K → C} {ftol : C} {ρ : Rand (Draws K)}
variable {pm : σ}

/-- **C12** with `w_noise` 0 or `None` no noise is drawn or added: in every iteration the model is
learned from exactly the selected individuals. -/
theorem C12_no_noise (hw : cfg.wNoise = none ∨ cfg.wNoise = some 0)
    (he : mkEda fl cfg init learn sample = .ok e) {t : ℕ} {s s' : St (List K) C σ} {brk : Bool}
    {nz : Gen (List K) → Except PyErr (Gen (List K))} (hnz : e.mkNoise ρ.noise = .ok nz)
    (hst : step env e f ftol ρ nz t s = .ok (s', brk)) :
    ∃ s1 : St (List K) C σ, truncation env e s = .ok s1 ∧
      learn s.pm s1.gen s1.elite (ρ.learn t) = .ok s'.pm ∧
      s'.elite = s1.elite ∧ s'.evalsElite = s1.evalsElite := by
  have hm := mkEda_ok he
  obtain ⟨s1, noisy, ev, best, i, ind, hs⟩ := step_ok hst
  have hattr : cfg.noiseAttr = 0 := by
    unfold BaseCfg.noiseAttr
    rcases hw with hw | hw <;> simp [hw]
  rw [hm.mkNoise] at hnz
  unfold mkWhiteNoise at hnz
  rw [hattr, if_pos rfl] at hnz
  have hnz := Except.ok.inj hnz
  subst hnz
  have hny := hs.noise
  have hnoisy : noisy = s1.gen := by
    unfold addNoise at hny
    simp only at hny
    split at hny
    · cases hny
    · exact (Except.ok.inj hny).symm
  have hu := hs.update
  rw [hm.updatePm, hnoisy] at hu
  exact ⟨s1, hs.trunc, hu, hs.elite, hs.evalsElite⟩

end noise

/-- The second pass of the concrete `UMDAd` run, which has `w_noise = 0`. -/
example : ∃ nz s s' brk s1, Ex.eda.mkNoise Ex.rand.noise = .ok nz ∧
    step Ex.env Ex.eda Ex.cost 0 Ex.rand nz 1 s = .ok (s', brk) ∧
    truncation Ex.env Ex.eda s = .ok s1 ∧ Ex.pm.learn id s1.gen.rows = .ok s'.pm := by
  obtain ⟨⟨s2, brk⟩, h2, _⟩ := Ex.facts_of Ex.head2_facts
  unfold Ex.head2 at h2
  split at h2
  · rename_i s0 nz h0 hnz
    obtain ⟨s1, ht, hl, _⟩ := C12_no_noise (cfg := { Ex.cfg.base with wNoise := some 0 })
      (Or.inr rfl) (UMDAd_mk Ex.cfg_mk) hnz h2
    have hp : s0.pm = Ex.pm := by
      obtain ⟨_, _, _, _, _, h⟩ := start_ok h0
      exact h.pm
    exact ⟨nz, s0, s2, brk, s1, hnz, h2, ht, by rw [← hp]; exact hl⟩
  · cases h2

end Verif
