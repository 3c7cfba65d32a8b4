/-
C75: UMDAd with the bounds 0 and 1, and UMDAcat, may never find the optimum: with a positive probability that
does not depend on the number of iterations, every individual of the whole run is the same.
-/
import Verif.Props.Law
import Verif.Props.Hit

set_option linter.unusedSectionVars false

namespace Verif

open PyCost Spec MeasureTheory ProbabilityTheory

section trace
variable {R C σ Ω : Type} [PyCost C]
variable {env : Env C} {e : Eda R σ Ω} {f : ℕ → R → C} {ftol : C} {pm : σ} {ρ : Rand Ω}

namespace Spec

/-- All individuals of the first generation are the individual `w`. -/
def StartsWith (w : R) (s : St R C σ) : Prop := ∃ batch, s.log[0]? = some batch ∧ ∀ p ∈ batch, p.1 = w

/-- All individuals ever evaluated in the run are the individual `w`. -/
def OnlyEvaluated (w : R) (s : St R C σ) : Prop := ∀ p ∈ s.log.flatten, p.1 = w

end Spec

/-- The calls recorded for the first generation are those for the individuals of the initial generation. -/
theorem first_batch (hv : env.Valid) {res : EdaResult R C} {s : St R C σ}
    (h : minimize env e f ftol pm ρ = .ok (res, s)) :
    ∃ g batch, e.initGen ρ.init = .ok g ∧ s.log[0]? = some batch ∧ batch.map Prod.fst = g.rows := by
  obtain ⟨s0, noise, h0, _, hl, _⟩ := minimize_ok h
  obtain ⟨ev, _, _, _, _, hs⟩ := start_ok h0
  obtain ⟨l, hpre⟩ := (loop_prefix noise _ _ _ _ hl).2
  refine ⟨s0.gen, ev.calls, hs.init, by rw [← hpre, hs.log]; rfl, ?_⟩
  rw [(check_calls hv hs.check).2, List.map_fst_zip]
  unfold callRows
  simp

/-- A run whose first generation consists of copies of `w`, with a model that only samples `w` after learning
from copies of `w`, only evaluates `w`. -/
theorem only_of_starts (hv : env.Valid) {w : R} {N : Gen R → Prop} {I Q : σ → Prop}
    (hr : (∀ g, e.initGen ρ.init = .ok g → ∀ r ∈ g.rows, r = w) → RowInv e ρ (fun r => r = w) N I Q)
    (hI : I pm) {res : EdaResult R C} {s : St R C σ}
    (h : minimize env e f ftol pm ρ = .ok (res, s)) (hs : StartsWith w s) : OnlyEvaluated w s := by
  obtain ⟨g, batch, hg, hb, hrows⟩ := first_batch hv h
  obtain ⟨batch', hb', hw⟩ := hs
  rw [hb] at hb'
  obtain rfl := Option.some.inj hb'
  refine (allRows_minimize hv (hr ?_) hI h).log
  intro g' hg' r hr'
  rw [hg] at hg'
  obtain rfl := Except.ok.inj hg'
  rw [← hrows] at hr'
  obtain ⟨p, hp, rfl⟩ := List.mem_map.1 hr'
  exact hw p hp

end trace

section binary
variable {K : Type} [Field K] [LinearOrder K] [IsStrictOrderedRing K] [FloorRing K] {C : Type} [PyCost C]
variable {fl : K → K} {cfg : UMDAdCfg K} {env : Env C} {f : ℕ → List K → C} {ftol : C}
variable {ρ : Rand (Draws K)} {e : Eda (List K) (UniBin K) (Draws K)} {b : UniBin K}

/-- **C75** `UMDAd` with the bounds 0 and 1: a run whose first generation (random or `init_data`) consists of
copies of one binary string evaluates nothing else, whatever the cost function, the elite and the draws. -/
theorem C75_UMDAd_only (hv : env.Valid) (hfl0 : fl 0 = 0) (hfl1 : fl 1 = 1)
    (h : UMDAd fl cfg = .ok (e, b)) (hlo : cfg.lower = 0) (hup : cfg.upper = 1)
    (hω : ∀ t, Unit01 (ρ.sample t)) {w : List K} (hbin : BinaryRow cfg.base.nVars w)
    {res : EdaResult (List K) C} {s : St (List K) C (UniBin K)}
    (hrun : minimize env e f ftol b ρ = .ok (res, s)) (hs : StartsWith w s) : OnlyEvaluated w s := by
  obtain ⟨hm, _, hb⟩ := UMDAd_ok h
  refine only_of_starts (N := fun g => ∀ r ∈ g.rows, r = w)
    (I := fun pm => pm.n = cfg.base.nVars ∧ pm.lb = 0 ∧ pm.ub = 1)
    (Q := fun pm' => pm'.p.length = cfg.base.nVars ∧ ∃ (pm : UniBin K) (g : Gen (List K)),
      (pm.n = cfg.base.nVars ∧ pm.lb = 0 ∧ pm.ub = 1) ∧ (∀ r ∈ g.rows, r = w) ∧ pm.learn fl g.rows = .ok pm') hv ?_
    (by rw [hb]; exact ⟨rfl, hlo, hup⟩) hrun hs
  intro hinit
  refine ⟨hinit, ?_, ?_, ?_⟩
  · intro nz g g' hnz hg hg'
    rw [UMDAd_noise h hnz hg']; exact hg
  · intro pm g el t pm' hI hN _ hu
    rw [hm.updatePm] at hu
    obtain ⟨hne, h1, h2, h3, hp⟩ := UniBin.learn_ok hu
    refine ⟨by rw [h1, h2, h3]; exact hI, ?_, pm, g, hI, hN, hu⟩
    have hrect : Rect cfg.base.nVars g.rows := fun r hr => by rw [hN r hr]; exact hbin.1
    rw [hp]
    simp [clipProbs, (colSums_spec hne hrect).1]
  · rintro pm t g hI ⟨hlen, pm0, g0, hI0, hN, hu⟩ hsm r hr
    rw [hm.sample] at hsm
    have hrl : r.length = cfg.base.nVars := by
      obtain ⟨_, _, _, h4⟩ := C21_sample_binary (by rw [hlen, hI.1]) hsm
      rw [hI.1] at h4
      exact (h4 r hr).1
    apply List.ext_getElem?
    intro j
    rcases Nat.lt_or_ge j cfg.base.nVars with hj | hj
    · have hjw : j < w.length := by rw [hbin.1]; exact hj
      rw [List.getElem?_eq_getElem hjw]
      refine fix_step hfl0 hfl1 (hω t) (by rw [hI0.1]; exact hj) hI0.2.1 hI0.2.2
        (hbin.2 _ (List.getElem_mem hjw)) hu ?_ hsm r hr
      intro r' hr'
      rw [hN r' hr', List.getElem?_eq_getElem hjw]
    · rw [List.getElem?_eq_none (by omega), List.getElem?_eq_none (by rw [hbin.1]; exact hj)]

end binary

section categorical
variable {K : Type} [Field K] [LinearOrder K] [IsStrictOrderedRing K] [FloorRing K] {C : Type} [PyCost C]
variable {α : Type} [LinearOrder α] {σ : Type}
variable {fl : K → K} {cfg : CatCfg α K} {env : Env C} {f : ℕ → List (Cat α) → C} {ftol : C}
variable {ρ : Rand (Draws K)}

theorem cat_only (hv : env.Valid) {learn : σ → Gen (List (Cat α)) → Draws K → Except PyErr σ}
    {sample : σ → Draws K → Except PyErr (Gen (List (Cat α)))} {e : Eda (List (Cat α)) σ (Draws K)} {pm : σ}
    (h : catEda fl cfg learn sample = .ok e) {I : σ → Prop} (hsd : CatSound cfg.base.nVars learn sample I)
    (hI : I pm) (hω : ∀ t, Unit01 (ρ.sample t)) {w : List (Cat α)} (hw : w.length = cfg.base.nVars)
    {res : EdaResult (List (Cat α)) C} {s : St (List (Cat α)) C σ}
    (hrun : minimize env e f ftol pm ρ = .ok (res, s)) (hs : StartsWith w s) : OnlyEvaluated w s := by
  obtain ⟨hm, _⟩ := catEda_ok h
  refine only_of_starts (N := fun g => ∀ r ∈ g.rows, r = w) (I := I)
    (Q := fun pm' => ∃ pm g ω, I pm ∧ (∀ r ∈ g.rows, r = w) ∧ learn pm g ω = .ok pm') hv ?_ hI hrun hs
  intro hinit
  refine ⟨hinit, ?_, ?_, ?_⟩
  · intro nz g g' hnz hg hg'
    rw [hm.mkNoise] at hnz
    obtain rfl := Except.ok.inj hnz
    rw [(addEmptyStr_ok hg').1]; exact hg
  · intro pm g el t pm' hI hN _ hu
    rw [hm.updatePm] at hu
    exact ⟨hsd.keep hI hu, pm, g, _, hI, hN, hu⟩
  · rintro pm t g hI ⟨pm0, g0, ω0, hI0, hN, hu⟩ hsm r hr
    rw [hm.sample] at hsm
    obtain ⟨hrl, hval⟩ := hsd.sound hI0 hu hsm (hω t) r hr
    apply List.ext_getElem?
    intro j
    rcases Nat.lt_or_ge j cfg.base.nVars with hj | hj
    · obtain ⟨r', hr', hj'⟩ := hval j _ (List.getElem?_eq_getElem (by omega))
      rw [List.getElem?_eq_getElem (by omega), ← hj', hN r' hr']
    · rw [List.getElem?_eq_none (by omega), List.getElem?_eq_none (by omega)]

/-- **C75** `UMDAcat`: a run whose first generation consists of copies of one individual evaluates nothing
else. -/
theorem C75_UMDAcat_only (hv : env.Valid) {e : Eda (List (Cat α)) (UniCat ℕ α K) (Draws K)}
    {b : UniCat ℕ α K} (h : UMDAcat fl cfg = .ok (e, b)) (hω : ∀ t, Unit01 (ρ.sample t))
    {w : List (Cat α)} (hw : w.length = cfg.base.nVars)
    {res : EdaResult (List (Cat α)) C} {s : St (List (Cat α)) C (UniCat ℕ α K)}
    (hrun : minimize env e f ftol b ρ = .ok (res, s)) (hs : StartsWith w s) : OnlyEvaluated w s := by
  obtain ⟨he, hb⟩ := UMDAcat_ok h
  exact cat_only hv he (uniCat_sound _ _) (by rw [hb]; rfl) hω hw hrun hs

/-- **C75** `EBNA` and `BOA` (if the library only simulates values seen in the training set): a run whose
first generation consists of copies of one individual evaluates nothing else. -/
theorem C75_bn_only (hv : env.Valid) {lib : BNLib σ α K} (hl : lib.Sound) {score : String}
    {e : Eda (List (Cat α)) (Option σ) (Draws K)} {b : Option σ}
    (h : bnEda fl lib score cfg = .ok (e, b)) (hω : ∀ t, Unit01 (ρ.sample t))
    {w : List (Cat α)} (hw : w.length = cfg.base.nVars)
    {res : EdaResult (List (Cat α)) C} {s : St (List (Cat α)) C (Option σ)}
    (hrun : minimize env e f ftol b ρ = .ok (res, s)) (hs : StartsWith w s) : OnlyEvaluated w s :=
  cat_only hv (bnEda_ok h) (bn_sound hl score _ _) trivial hω hw hrun hs

end categorical

section prob
variable {Ω : Type} [MeasurableSpace Ω] {P : Measure Ω} {U : Ω → Rand (Draws ℝ)}
variable {fl : ℝ → ℝ} {env : Env ℝ} {ftol : ℝ}

/-- **C75** `UMDAd` with the bounds 0 and 1, a random first generation with the probabilities `v`, and any
binary string `w`: with at least the probability that the first generation consists of copies of `w`, the run
returns without having evaluated anything else, for every number of iterations and every cost function.  The
later draws need not be independent or uniform. -/
theorem C75_UMDAd_probability {cfg : UMDAdCfg ℝ} {f : ℕ → List ℝ → ℝ}
    {e : Eda (List ℝ) (UniBin ℝ) (Draws ℝ)} {b : UniBin ℝ} (hv : env.Valid)
    (hfl0 : fl 0 = 0) (hfl1 : fl 1 = 1) (h : UMDAd fl cfg = .ok (e, b)) (hlo : cfg.lower = 0)
    (hup : cfg.upper = 1) (hinit : cfg.base.initData = none) {v : List ℝ}
    (hvec : cfg.vector.getD (List.replicate cfg.base.nVars (1 / 2)) = v) (hvl : v.length = cfg.base.nVars)
    (hv01 : ∀ x ∈ v, 0 ≤ x ∧ x ≤ 1) (hsize : 1 ≤ cfg.base.sizeGen)
    (hcpu : cfg.base.parallel = true → (env.cpu : ℤ) ≤ cfg.base.sizeGen)
    (htr : 1 ≤ selLen fl cfg.base.sizeGen cfg.base.alpha)
    (hU : IndepDraws P (fun _ => unif01) (fun ω => (U ω).init))
    (hS : ∀ᵐ ω ∂P, ∀ t, Unit01 ((U ω).sample t)) (w : Fin cfg.base.nVars → Bool) :
    (∏ j, ENNReal.ofReal (if w j then v.getD j 0 else 1 - v.getD j 0)) ^ cfg.base.sizeGen.toNat ≤
      P {ω | ∃ res s, minimize env e f ftol b (U ω) = .ok (res, s) ∧
        OnlyEvaluated (List.ofFn (fun j => if w j then (1 : ℝ) else 0)) s} := by
  obtain ⟨hm, hlu, hb⟩ := UMDAd_ok h
  have hwf : cfg.WF := by
    refine ⟨fun v' hv' => ?_, fun d hd => ?_⟩
    · rw [hv'] at hvec; rw [← hvl, ← hvec]; rfl
    · rw [hinit] at hd; cases hd
  obtain ⟨hpl, hn⟩ := umdadInit_length hwf
  have hp : (umdadInit cfg).p = v := by
    have hm' : umdadInit cfg = uniBinInit cfg.base.nVars v := by
      rw [← hvec]
      unfold umdadInit
      cases cfg.vector <;> rfl
    rw [hm']
    unfold uniBinInit
    simp only
    split
    · rename_i h0
      rw [← hvl, h0, List.length_eq_zero_iff.1 h0]; rfl
    · rfl
  have hgen := C74_binary_generation (b := umdadInit cfg) hU (by rw [hpl, hn]) (by rw [hp]; exact hv01)
    (m := cfg.base.sizeGen.toNat) (fun _ j => w (Fin.cast hn j))
  have hprod : (∏ _i : Fin cfg.base.sizeGen.toNat, ∏ j : Fin (umdadInit cfg).n,
      ENNReal.ofReal (if w (Fin.cast hn j) then (umdadInit cfg).p.getD j 0 else 1 - (umdadInit cfg).p.getD j 0)) =
      (∏ j, ENNReal.ofReal (if w j then v.getD j 0 else 1 - v.getD j 0)) ^ cfg.base.sizeGen.toNat := by
    rw [hp, Finset.prod_const, Finset.card_univ, Fintype.card_fin]
    rfl
  rw [hprod] at hgen
  rw [← hgen]
  apply measure_mono_ae
  filter_upwards [hS] with ω hω hg
  obtain ⟨g, hg, hrows⟩ := hg
  obtain ⟨e', b', h', res, s, hrun⟩ := C53_UMDAd_never_raises (env := env) (f := f) (ftol := ftol) (ρ := U ω) hv
    hwf hm.dead hlu (fun d hd => by rw [hinit] at hd; cases hd) hsize hcpu htr
    (fun k r => by simp [IsNum, PyCost.eq])
  rw [h] at h'
  obtain ⟨rfl, rfl⟩ := Prod.mk.inj (Except.ok.inj h')
  refine ⟨res, s, hrun, C75_UMDAd_only hv hfl0 hfl1 h hlo hup hω ⟨by simp, ?_⟩ hrun ?_⟩
  · intro x hx
    obtain ⟨j, rfl⟩ := (List.mem_ofFn' _ _).1 hx
    dsimp only
    split
    · exact .inr rfl
    · exact .inl rfl
  · obtain ⟨g', batch, hg', hb', hr'⟩ := first_batch hv hrun
    rw [hm.initNone hinit] at hg'
    have hsz : ((cfg.base.sizeGen.toNat : ℕ) : ℤ) = cfg.base.sizeGen := by omega
    rw [hsz] at hg
    obtain rfl := Except.ok.inj (hg.symm.trans hg')
    refine ⟨batch, hb', fun p hp => ?_⟩
    have := List.mem_map_of_mem (f := Prod.fst) hp
    rw [hr', hrows] at this
    obtain ⟨i, hi⟩ := (List.mem_ofFn' _ _).1 this
    rw [← hi]
    rfl

/-- A run that only evaluates a string worse than the optimum does not return the optimal cost. -/
theorem not_optimal {R σ Ω' : Type} {env : Env ℝ} {e : Eda R σ Ω'} {g : R → ℝ} {pm : σ} {ρ : Rand Ω'}
    (hv : env.Valid) {w : R} {best : ℝ} (hw : best < g w) {res : EdaResult R ℝ} {s : St R ℝ σ}
    (hrun : minimize env e (fun _ => g) ftol pm ρ = .ok (res, s)) (ho : OnlyEvaluated w s) :
    res.bestCost ≠ best := by
  obtain ⟨hmem, k, r, hk, hr⟩ := C01_best_cost_observed hv hrun
  have := ho _ (List.mem_of_getElem? hk)
  simp only at this
  rw [hr, this]
  exact hw.ne'

/-- **C75** for every cost function that is not constant on the binary strings, the probability that `UMDAd`
with the bounds 0 and 1 does not return the minimum is at least `2 ^ -(n_variables * size_gen)`, however many
iterations are allowed: it does not tend to 0 (compare C64). -/
theorem C75_UMDAd_misses {cfg : UMDAdCfg ℝ} {g : List ℝ → ℝ} {best : ℝ}
    {e : Eda (List ℝ) (UniBin ℝ) (Draws ℝ)} {b : UniBin ℝ} (hv : env.Valid)
    (hfl0 : fl 0 = 0) (hfl1 : fl 1 = 1) (h : UMDAd fl cfg = .ok (e, b)) (hlo : cfg.lower = 0)
    (hup : cfg.upper = 1) (hinit : cfg.base.initData = none) (hvec : cfg.vector = none)
    (hsize : 1 ≤ cfg.base.sizeGen)
    (hcpu : cfg.base.parallel = true → (env.cpu : ℤ) ≤ cfg.base.sizeGen)
    (htr : 1 ≤ selLen fl cfg.base.sizeGen cfg.base.alpha)
    (hU : IndepDraws P (fun _ => unif01) (fun ω => (U ω).init))
    (hS : ∀ᵐ ω ∂P, ∀ t, Unit01 ((U ω).sample t))
    {w : List ℝ} (hw : BinaryRow cfg.base.nVars w) (hbest : best < g w) :
    2⁻¹ ^ (cfg.base.nVars * cfg.base.sizeGen.toNat) ≤
      P {ω | ∃ res s, minimize env e (fun _ => g) ftol b (U ω) = .ok (res, s) ∧ res.bestCost ≠ best} := by
  have hmain := C75_UMDAd_probability (f := fun _ => g) (ftol := ftol) hv hfl0 hfl1 h hlo hup hinit
    (v := List.replicate cfg.base.nVars (1 / 2)) (by rw [hvec]; rfl) (by simp) (by
      intro x hx; rw [(List.mem_replicate.1 hx).2]; norm_num) hsize hcpu htr hU hS
    (fun j => decide (w.getD j 0 = 1))
  have hwe : List.ofFn (fun j : Fin cfg.base.nVars => if decide (w.getD j 0 = 1) = true then (1 : ℝ) else 0) = w := by
    apply List.ext_getElem
    · simp [hw.1]
    · intro j h1 h2
      rw [List.getElem_ofFn]
      simp only [List.getD_eq_getElem?_getD, List.getElem?_eq_getElem h2, Option.getD_some, decide_eq_true_eq]
      rcases hw.2 _ (List.getElem_mem h2) with h0 | h0 <;> rw [h0] <;> simp
  rw [hwe] at hmain
  refine (le_of_eq ?_).trans (hmain.trans (measure_mono ?_))
  · rw [pow_mul]
    congr 1
    have : ∀ j : Fin cfg.base.nVars, ENNReal.ofReal (if decide (w.getD j 0 = 1) = true then
        (List.replicate cfg.base.nVars (1 / 2 : ℝ)).getD j 0 else
        1 - (List.replicate cfg.base.nVars (1 / 2 : ℝ)).getD j 0) = 2⁻¹ := by
      intro j
      have : (List.replicate cfg.base.nVars (1 / 2 : ℝ)).getD j 0 = 1 / 2 := by
        simp [List.getD_eq_getElem?_getD]
      rw [this, show (1 : ℝ) - 1 / 2 = 1 / 2 by norm_num, ite_self, one_div,
        ENNReal.ofReal_inv_of_pos (by norm_num)]
      norm_num
    rw [Finset.prod_congr rfl (fun j _ => this j)]
    simp
  · rintro ω ⟨res, s, hrun, ho⟩
    exact ⟨res, s, hrun, not_optimal hv hbest hrun ho⟩

/-- The probability of a value of a table is at least its weight. -/
theorem weighted_ge {V : Type} [MeasurableSpace V] [MeasurableSingletonClass V] {t : List (V × ℝ)} {v : V} {q : ℝ}
    (h : (v, q) ∈ t) : ENNReal.ofReal (q / (t.map Prod.snd).sum) ≤ weighted t {v} := by
  unfold weighted
  generalize (t.map Prod.snd).sum = S
  induction t with
  | nil => simp at h
  | cons x xs ih =>
    rw [List.map_cons, List.sum_cons, Measure.add_apply]
    rcases List.mem_cons.1 h with rfl | h
    · refine le_trans (le_of_eq ?_) le_self_add
      simp
    · exact (ih h).trans le_add_self

/-- **C75** `UMDAcat` with string categories and a random first generation, and any individual `w` whose values
have the frequencies `q`: with at least the probability that the first generation consists of copies of `w`,
the run returns without having evaluated anything else.  There is no setting that prevents this. -/
theorem C75_UMDAcat_probability {α : Type} [LinearOrder α] {cfg : CatCfg α ℝ} {f : ℕ → List (Cat α) → ℝ}
    (hv : env.Valid) {m : ℕ} (hval : CatValid env.cpu fl cfg m) (hinit : cfg.base.initData = none)
    (hU : IndepDraws P (fun _ => unif01) (fun ω => (U ω).init))
    (hS : ∀ᵐ ω ∂P, ∀ t, Unit01 ((U ω).sample t)) {w : Fin cfg.base.nVars → Cat α}
    {q : Fin cfg.base.nVars → ℝ}
    (hw : ∀ j, ∃ vs p, cfg.space.vals[j.1]? = some vs ∧ cfg.space.freq[j.1]? = some p ∧ p.sum = 1 ∧
      ∃ k : ℕ, vs[k]? = some (w j) ∧ p[k]? = some (q j)) :
    ∃ e b, UMDAcat fl cfg = .ok (e, b) ∧
      (∏ j, ENNReal.ofReal (q j)) ^ cfg.base.sizeGen.toNat ≤
        P {ω | ∃ res s, minimize env e f ftol b (U ω) = .ok (res, s) ∧ OnlyEvaluated (List.ofFn w) s} := by
  obtain ⟨e, b, h, _⟩ := C53_UMDAcat_never_raises (ρ := ⟨fun _ _ => 0, fun _ _ => 0, fun _ _ _ => 0,
    fun _ _ _ => 0⟩) (f := fun _ _ => (0 : ℝ)) (ftol := 0) hv hval (by intro i j; simp) (by intro t i j; simp)
    (fun k r => by simp [IsNum, PyCost.eq])
  refine ⟨e, b, h, ?_⟩
  obtain ⟨he, hb⟩ := UMDAcat_ok h
  obtain ⟨hm, _⟩ := catEda_ok he
  have hsp : ∀ j, ∃ vp : List (Cat α) × List ℝ, j < cfg.base.nVars → cfg.space.vals[j]? = some vp.1 ∧
      cfg.space.freq[j]? = some vp.2 ∧ vp.1.length = vp.2.length ∧ (∀ x ∈ vp.2, 0 ≤ x) ∧
      |vp.2.sum - 1| ≤ 1 / 2 ^ 26 ∧ ∀ w ∈ vp.1, w.isStr = true := by
    intro j
    by_cases hj : j < cfg.base.nVars
    · obtain ⟨v, p, hvp⟩ := hval.space j hj
      exact ⟨(v, p), fun _ => hvp⟩
    · exact ⟨([], []), fun h => absurd h hj⟩
  choose vp hvp using hsp
  have hsz := hval.size
  have hpos := hval.pos
  have hcells := C74_cat_init (size := cfg.base.sizeGen) hU (s := cfg.space) hval.vars
    (v := fun j => (vp j).1) (p := fun j => (vp j).2) (fun j hj => by
      obtain ⟨h1, h2, h3, h4, h5, h6⟩ := hvp j hj
      exact ⟨h1, h2, h3, h4, h5, fun _ => .inl h6⟩) (by omega)
  have hprob := indepCells_prob hcells (fun _ j => w j)
  have hle : (∏ j, ENNReal.ofReal (q j)) ^ cfg.base.sizeGen.toNat ≤
      ∏ _i : Fin cfg.base.sizeGen.toNat, ∏ j : Fin cfg.base.nVars,
        weighted ((vp j).1.zip (vp j).2) {w j} := by
    rw [Finset.prod_const, Finset.card_univ, Fintype.card_fin]
    refine pow_le_pow_left' (Finset.prod_le_prod' fun j _ => ?_) _
    obtain ⟨vs, p, k1, k2, k3, k, k4, k5⟩ := hw j
    obtain ⟨h1, h2, h3, _⟩ := hvp j j.2
    rw [k1] at h1; rw [k2] at h2
    rw [← Option.some.inj h1, ← Option.some.inj h2] at h3 ⊢
    have hmem : (w j, q j) ∈ vs.zip p := by
      refine List.mem_of_getElem? (i := k) ?_
      rw [List.getElem?_zip_eq_some]; exact ⟨k4, k5⟩
    have := weighted_ge hmem
    rwa [List.map_snd_zip h3.ge, k3, div_one] at this
  refine hle.trans (hprob.symm.le.trans (measure_mono_ae ?_))
  have hun : ∀ᵐ ω ∂P, Unit01 (U ω).init := by
    have : ∀ᵐ ω ∂P, ∀ j i, 0 ≤ (U ω).init i j ∧ (U ω).init i j < 1 := ae_all_iff.2 fun j => ae_unit hU rfl
    filter_upwards [this] with ω hω i j using hω j i
  filter_upwards [hS, hun] with ω hω hi hg
  obtain ⟨g, hg, hrows⟩ := hg
  obtain ⟨e', b', h', res, s, hrun⟩ := C53_UMDAcat_never_raises (f := f) (ftol := ftol) (ρ := U ω) hv hval hi hω
    (fun k r => by simp [IsNum, PyCost.eq])
  rw [h] at h'
  obtain ⟨rfl, rfl⟩ := Prod.mk.inj (Except.ok.inj h')
  refine ⟨res, s, hrun, C75_UMDAcat_only hv h hω (by simp) hrun ?_⟩
  obtain ⟨g', batch, hg', hb', hr'⟩ := first_batch hv hrun
  rw [hm.initNone hinit] at hg'
  obtain rfl := Except.ok.inj (hg.symm.trans hg')
  refine ⟨batch, hb', fun p hp => ?_⟩
  have := List.mem_map_of_mem (f := Prod.fst) hp
  rw [hr', hrows] at this
  obtain ⟨i, hi⟩ := (List.mem_ofFn' _ _).1 this
  rw [← hi]

/-- **C75** so the probability that `UMDAcat` does not return the minimum of a cost function does not tend to
0 as the number of iterations grows, if some individual with positive frequencies is not optimal. -/
theorem C75_UMDAcat_misses {α : Type} [LinearOrder α] {cfg : CatCfg α ℝ} {g : List (Cat α) → ℝ} {best : ℝ}
    (hv : env.Valid) {m : ℕ} (hval : CatValid env.cpu fl cfg m) (hinit : cfg.base.initData = none)
    (hU : IndepDraws P (fun _ => unif01) (fun ω => (U ω).init))
    (hS : ∀ᵐ ω ∂P, ∀ t, Unit01 ((U ω).sample t)) {w : Fin cfg.base.nVars → Cat α}
    {q : Fin cfg.base.nVars → ℝ}
    (hw : ∀ j, ∃ vs p, cfg.space.vals[j.1]? = some vs ∧ cfg.space.freq[j.1]? = some p ∧ p.sum = 1 ∧
      ∃ k : ℕ, vs[k]? = some (w j) ∧ p[k]? = some (q j)) (hbest : best < g (List.ofFn w)) :
    ∃ e b, UMDAcat fl cfg = .ok (e, b) ∧
      (∏ j, ENNReal.ofReal (q j)) ^ cfg.base.sizeGen.toNat ≤
        P {ω | ∃ res s, minimize env e (fun _ => g) ftol b (U ω) = .ok (res, s) ∧ res.bestCost ≠ best} := by
  obtain ⟨e, b, h, hp⟩ := C75_UMDAcat_probability (f := fun _ => g) (ftol := ftol) hv hval hinit hU hS hw
  refine ⟨e, b, h, hp.trans (measure_mono ?_)⟩
  rintro ω ⟨res, s, hrun, ho⟩
  exact ⟨res, s, hrun, not_optimal hv hbest hrun ho⟩

end prob

/-! ### Concrete cases -/

section examples

/-- The settings of the example of C64, with the bounds 0 and 1. -/
noncomputable def stuckCfg (m : ℕ) : UMDAdCfg ℝ :=
  { realCfg with base := { realCfg.base with maxIter := m, deadIter := 0 }, lower := 0, upper := 1 }

/-- Counting the zeros of two bits with generations of 4 individuals: whatever `max_iter`, the optimum 0 is
missed with probability at least `2 ^ -8`. -/
example (m : ℕ) : ∃ e b, UMDAd id (stuckCfg m) = .ok (e, b) ∧
    2⁻¹ ^ 8 ≤ (Measure.infinitePi fun _ : ℕ => Measure.infinitePi fun _ : ℕ => unif01)
      {ω : ℕ → ℕ → ℝ | ∃ res s, minimize realEnv e (fun _ r => 2 - r.sum) 0 b
        ⟨ω, fun _ _ => 0, fun _ _ _ => 0, fun _ _ _ => 1 / 2⟩ = .ok (res, s) ∧ res.bestCost ≠ 0} := by
  have hwf : (stuckCfg m).WF :=
    ⟨fun v hv => by simp [stuckCfg, realCfg] at hv, fun d hd => by simp [stuckCfg, realCfg] at hd⟩
  obtain ⟨e, b, h, _⟩ := C53_UMDAd_never_raises (env := realEnv) (f := fun _ _ => (0 : ℝ)) (ftol := 0)
    (ρ := ⟨fun _ _ => 0, fun _ _ => 0, fun _ _ _ => 0, fun _ _ _ => 0⟩) (fl := id) realEnv_valid hwf
    (by simp [stuckCfg]) (by simp [stuckCfg]) (fun d hd => by simp [stuckCfg, realCfg] at hd)
    (by norm_num [stuckCfg, realCfg]) (by simp [stuckCfg, realCfg])
    (by norm_num [stuckCfg, realCfg, selLen, pyInt, Num.truncZ]) (fun k r => by simp [IsNum, PyCost.eq])
  refine ⟨e, b, h, ?_⟩
  exact C75_UMDAd_misses (fl := id) (cfg := stuckCfg m) (env := realEnv) (ftol := 0)
    (U := fun ω => ⟨ω, fun _ _ => 0, fun _ _ _ => 0, fun _ _ _ => 1 / 2⟩)
    (g := fun r => 2 - r.sum) realEnv_valid rfl rfl h rfl rfl rfl rfl
    (by norm_num [stuckCfg, realCfg]) (by simp [stuckCfg, realCfg])
    (by norm_num [stuckCfg, realCfg, selLen, pyInt, Num.truncZ]) (indepDraws_exist (fun _ => unif01))
    (Filter.Eventually.of_forall fun ω t i j => by norm_num) (w := [0, 1])
    ⟨rfl, by simp⟩ (by norm_num)

/-- One variable with two equally frequent categories, generations of 3 individuals. -/
noncomputable def stuckCat (m : ℕ) : CatCfg ℕ ℝ :=
  { base := { sizeGen := 3, maxIter := m, deadIter := 0, nVars := 1, alpha := 1/2,
              eliteFactor := 1/4, parallel := false, initData := none, wNoise := none }
    space := { objArr := false, vals := [[.str 0, .str 1]], freq := [[1/2, 1/2]] } }

/-- The cost function that prefers the second category misses its optimum with probability at least 1/8,
whatever `max_iter`. -/
example (m : ℕ) : ∃ e b, UMDAcat id (stuckCat m) = .ok (e, b) ∧
    ENNReal.ofReal (1 / 2) ^ 3 ≤ (Measure.infinitePi fun _ : ℕ => Measure.infinitePi fun _ : ℕ => unif01)
      {ω : ℕ → ℕ → ℝ | ∃ res s, minimize realEnv e (fun _ r => if r = [.str 1] then 0 else 1) 0 b
        ⟨ω, fun _ _ => 0, fun _ _ _ => 0, fun _ _ _ => 1 / 2⟩ = .ok (res, s) ∧ res.bestCost ≠ 0} := by
  obtain ⟨e, b, h, hp⟩ := C75_UMDAcat_misses (fl := id) (cfg := stuckCat m) (env := realEnv) (ftol := 0)
    (U := fun ω => ⟨ω, fun _ _ => 0, fun _ _ _ => 0, fun _ _ _ => 1 / 2⟩) (m := 1)
    (g := fun r => if r = [.str 1] then (0 : ℝ) else 1) (best := 0) realEnv_valid
    { pos := le_refl _, dead := by simp [stuckCat], vars := by simp [stuckCat], size := by norm_num [stuckCat]
      cpu := by simp [stuckCat], trunc := by norm_num [stuckCat, selLen, pyInt, Num.truncZ]
      space := by
        intro j hj
        have hj : j < 1 := hj
        obtain rfl : j = 0 := by omega
        exact ⟨_, _, rfl, rfl, rfl, by simp, by norm_num, by simp [Cat.isStr]⟩
      data := by intro d hd; simp [stuckCat] at hd }
    rfl (indepDraws_exist (fun _ => unif01)) (Filter.Eventually.of_forall fun ω t i j => by norm_num)
    (w := fun _ => .str 0) (q := fun _ => 1 / 2) (by
      intro j
      have hj : j.1 < 1 := j.2
      have hj0 : j.1 = 0 := by omega
      rw [hj0]
      exact ⟨_, _, rfl, rfl, by norm_num, 0, rfl, rfl⟩) (by
        have : List.ofFn (fun _ : Fin (stuckCat m).base.nVars => (Cat.str 0 : Cat ℕ)) = [.str 0] := rfl
        rw [this]; simp)
  refine ⟨e, b, h, le_trans (le_of_eq ?_) hp⟩
  have : (∏ _j : Fin 1, ENNReal.ofReal (1 / 2)) ^ 3 = ENNReal.ofReal (1 / 2) ^ 3 := by simp
  exact this.symm

end examples

end Verif
