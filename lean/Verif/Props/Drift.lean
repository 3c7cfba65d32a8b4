/-
C79: premature convergence.  With the bounds 0 and 1, the population of UMDAd becomes uniform, with probability
tending to 1, and stays so; the same for UMDAcat.  (The noise of eda.py:188, "for avoiding genetic drift", is
switched off in both, see C12.)
-/
import Verif.Lemmas.Drift
import Verif.Props.Stuck
import Verif.Lemmas.Float64

set_option linter.unusedSectionVars false

namespace Verif

open PyCost Spec MeasureTheory ProbabilityTheory

namespace Spec

/-- Rounded frequencies stay away from 0 and 1: with at most `k` individuals, a value that occurs has a
frequency of at least `q`, one that does not occur everywhere one of at most `1 - q`. -/
structure Apart (fl : ℝ → ℝ) (k : ℕ) (q : ℝ) : Prop where
  pos : 0 < q
  le_one : q ≤ 1
  low : ∀ c m : ℕ, 1 ≤ c → c ≤ m → m ≤ k → q ≤ fl ((c : ℝ) / m)
  high : ∀ c m : ℕ, c < m → m ≤ k → fl ((c : ℝ) / m) ≤ 1 - q

end Spec

/-- Exact frequencies of at most `k` individuals are apart by `1 / k`. -/
theorem apart_id {k : ℕ} (hk : 1 ≤ k) : Apart id k (1 / k) := by
  have hk0 : (0 : ℝ) < k := by exact_mod_cast hk
  refine ⟨by positivity, ?_, ?_, ?_⟩
  · rw [div_le_one hk0]; exact_mod_cast hk
  · intro c m h1 h2 h3
    have hm : (0 : ℝ) < m := by exact_mod_cast (by omega : 0 < m)
    have hmk : (m : ℝ) ≤ k := by exact_mod_cast h3
    have hc : (1 : ℝ) ≤ c := by exact_mod_cast h1
    calc (1 : ℝ) / k ≤ 1 / m := one_div_le_one_div_of_le hm hmk
      _ ≤ (c : ℝ) / m := by gcongr
  · intro c m h1 h3
    have hm : (0 : ℝ) < m := by exact_mod_cast (by omega : 0 < m)
    have hmk : (m : ℝ) ≤ k := by exact_mod_cast h3
    have hc : (c : ℝ) + 1 ≤ m := by exact_mod_cast h1
    have h4 : (1 : ℝ) / k ≤ 1 / m := one_div_le_one_div_of_le hm hmk
    have h5 : (c : ℝ) / m ≤ 1 - 1 / m := by
      rw [le_sub_iff_add_le, ← add_div, div_le_one hm]; exact hc
    simp only [id]
    linarith

/-- Frequencies of at most `k ≤ 2^53` individuals computed in double precision. -/
theorem apart_fl64 {k : ℕ} (hk : 1 ≤ k) (hk2 : k ≤ 2 ^ 53) : Apart fl64 k (1 / k - 2 ^ (-54 : ℤ)) := by
  obtain ⟨h1, h2, h3, h4⟩ := apart_id hk
  have hk0 : (0 : ℝ) < k := by exact_mod_cast hk
  have hbig : (2 : ℝ) ^ (-53 : ℤ) ≤ 1 / k := by
    rw [zpow_neg, ← one_div]
    refine one_div_le_one_div_of_le hk0 ?_
    exact_mod_cast hk2
  have hpos : (0 : ℝ) < 2 ^ (-54 : ℤ) := by positivity
  have hhalf : (2 : ℝ) ^ (-54 : ℤ) < 2 ^ (-53 : ℤ) := by norm_num
  have hu : ∀ c m : ℕ, c ≤ m → 0 < m → |(c : ℝ) / m - fl64 ((c : ℝ) / m)| ≤ 2 ^ (-54 : ℤ) := by
    intro c m hcm hm
    have hm0 : (0 : ℝ) < m := by exact_mod_cast hm
    refine fl64_unit (by positivity) ?_
    rw [div_le_one hm0]; exact_mod_cast hcm
  refine ⟨by linarith, by linarith, ?_, ?_⟩
  · intro c m e1 e2 e3
    have := h3 c m e1 e2 e3
    have h := abs_le.1 (hu c m e2 (by omega))
    simp only [id] at this
    linarith
  · intro c m e1 e3
    have := h4 c m e1 e3
    have h := abs_le.1 (hu c m e1.le (by omega))
    simp only [id] at this
    linarith

/-- The sum of a binary column counts its ones. -/
theorem col_count {n : ℕ} {data : List (List ℝ)} (hb : ∀ r ∈ data, BinaryRow n r) {j : ℕ} (hj : j < n) :
    ∃ c : ℕ, (col data j).sum = c ∧ c ≤ data.length ∧
      (∀ x ∈ data, x[j]? = some 1 → 1 ≤ c) ∧ (∀ x ∈ data, x[j]? = some 0 → c < data.length) := by
  induction data with
  | nil => exact ⟨0, by simp [col], by simp, by simp, by simp⟩
  | cons r rs ih =>
    obtain ⟨c, h1, h2, h3, h4⟩ := ih (fun r hr => hb r (List.mem_cons_of_mem _ hr))
    have hr := hb r List.mem_cons_self
    have hjr : j < r.length := by rw [hr.1]; exact hj
    have hgd : r.getD j 0 = r[j] := by rw [List.getD_eq_getElem?_getD, List.getElem?_eq_getElem hjr]; rfl
    have hs : (col (r :: rs) j).sum = r[j] + c := by
      simp only [col, List.map_cons, List.sum_cons, hgd]
      congr 1
    rcases hr.2 _ (List.getElem_mem hjr) with h0 | h0
    · refine ⟨c, by rw [hs, h0, zero_add], by simp only [List.length_cons]; omega, ?_, ?_⟩
      · intro x hx hx1
        rcases List.mem_cons.1 hx with rfl | hx
        · rw [List.getElem?_eq_getElem hjr, h0] at hx1; simp at hx1
        · exact h3 x hx hx1
      · intro x _ _; simp only [List.length_cons]; omega
    · refine ⟨c + 1, by rw [hs, h0]; push_cast; ring, by simp only [List.length_cons]; omega, ?_, ?_⟩
      · intro x _ _; omega
      · intro x hx hx0
        rcases List.mem_cons.1 hx with rfl | hx
        · rw [List.getElem?_eq_getElem hjr, h0] at hx0; simp at hx0
        · have := h4 x hx hx0
          simp only [List.length_cons]; omega

theorem uniBin_discrete (b : UniBin ℝ) (size : ℤ) : Discretely (fun ω : Draws ℝ => b.sample size ω) := by
  set m := if b.p.length = 1 then b.n else b.p.length with hm
  refine ⟨Fin size.toNat → Fin m → Bool, inferInstance, inferInstance, inferInstance,
    fun ω i j => decide (ω i (if b.n = 1 then 0 else j) < b.p.getD (if b.p.length = 1 then 0 else j) 0), ?_, ?_⟩
  · refine measurable_pi_lambda _ fun i => measurable_pi_lambda _ fun j => ?_
    refine measurable_to_bool ?_
    simp only [Set.preimage, Set.mem_singleton_iff, decide_eq_true_eq]
    exact measurableSet_lt ((measurable_pi_apply _).comp (measurable_pi_apply _)) measurable_const
  · intro x y hxy
    have hrows : (List.range size.toNat).map (fun i => binRow b.p b.n m (x i)) =
        (List.range size.toNat).map (fun i => binRow b.p b.n m (y i)) := ?_
    · simp only [UniBin.sample, ← hm, hrows]
    apply List.map_congr_left
    intro i hi
    unfold binRow
    apply List.map_congr_left
    intro j hj
    have := congrFun (congrFun hxy ⟨i, List.mem_range.1 hi⟩) ⟨j, List.mem_range.1 hj⟩
    simp only [decide_eq_decide] at this
    simp only [this]

section binary
variable {fl : ℝ → ℝ} {cfg : UMDAdCfg ℝ} {env : Env ℝ} {g : List ℝ → ℝ} {ftol : ℝ}
variable {ρ : Rand (Draws ℝ)} {e : Eda (List ℝ) (UniBin ℝ) (Draws ℝ)} {b : UniBin ℝ}

/-- A model learned from at most `k` binary strings fills a generation with copies of one of them with
probability at least `q ^ (n * size)`. -/
theorem uniBin_luck {D : Measure (Draws ℝ)} (hD : IndepDraws D (fun _ => unif01) (fun ω => ω)) {k n N : ℕ}
    {q : ℝ} (hq : Apart fl k q) {b b' : UniBin ℝ} (hn : b.n = n) (hlb : b.lb = 0) (hub : b.ub = 1)
    {data : List (List ℝ)} (hb : ∀ r ∈ data, BinaryRow n r) {x : List ℝ} (hx : x ∈ data)
    (hk : data.length ≤ k) (h : b.learn fl data = .ok b') :
    ENNReal.ofReal q ^ (n * N) ≤ D {ω | ∃ g', b'.sample N ω = .ok g' ∧ (N : ℤ) ≤ g'.rows.length ∧
      ∀ r ∈ g'.rows, r = x} := by
  have hrect : Rect n data := fun r hr => (hb r hr).1
  obtain ⟨p1, p2, p3, p4, p5⟩ := C20_learn_frequencies (by rw [hlb, hub]; norm_num) hrect h
  have hbn : b'.n = n := p4.trans hn
  subst hbn
  have hxb := hb x hx
  have hne : data ≠ [] := List.ne_nil_of_mem hx
  have hm0 : (0 : ℝ) < data.length := by exact_mod_cast List.length_pos_iff.2 hne
  -- the learned probabilities
  have hp : ∀ j < b'.n, ∃ y, b'.p[j]? = some y ∧ 0 ≤ y ∧ y ≤ 1 ∧ (x[j]? = some 1 → q ≤ y) ∧
      (x[j]? = some 0 → y ≤ 1 - q) := by
    intro j hj
    obtain ⟨c, c1, c2, c3, c4⟩ := col_count hb hj
    have hmean : mean (col data j) = (c : ℝ) / data.length := by
      unfold mean
      rw [c1]; simp [col]
    refine ⟨_, p5 j hj, ?_, ?_, ?_, ?_⟩
    · rw [hlb, hub]; unfold clip; exact le_max_left _ _
    · rw [hlb, hub]; unfold clip; exact max_le zero_le_one (min_le_left _ _)
    · intro hx1
      rw [hlb, hub, hmean]
      unfold clip
      exact le_max_of_le_right (le_min hq.le_one (hq.low c _ (c3 x hx hx1) c2 hk))
    · intro hx0
      rw [hlb, hub, hmean]
      unfold clip
      exact max_le (by linarith [hq.le_one]) ((min_le_right _ _).trans (hq.high c _ (c4 x hx hx0) hk))
  have h01 : ∀ y ∈ b'.p, 0 ≤ y ∧ y ≤ 1 := by
    intro y hy
    obtain ⟨j, hj⟩ := List.mem_iff_getElem?.1 hy
    obtain ⟨y', hy', a, b, _⟩ := hp j (by rw [← p1]; exact (List.getElem?_eq_some_iff.1 hj).1)
    rw [hj] at hy'
    obtain rfl := Option.some.inj hy'
    exact ⟨a, b⟩
  have hgen := C74_binary_generation hD p1 h01 (m := N) (fun _ j => decide (x[(j : ℕ)]? = some 1))
  have hxof : List.ofFn (fun j : Fin b'.n => if decide (x[(j : ℕ)]? = some 1) then (1 : ℝ) else 0) = x := by
    apply List.ext_getElem?
    intro j
    rcases Nat.lt_or_ge j b'.n with hj | hj
    · have hjx : j < x.length := by rw [hxb.1]; exact hj
      rw [List.getElem?_eq_getElem hjx]
      simp only [List.getElem?_ofFn, hj, dif_pos, Option.some.injEq, decide_eq_true_eq,
        List.getElem?_eq_getElem hjx]
      rcases hxb.2 _ (List.getElem_mem hjx) with h0 | h0 <;> simp [h0]
    · rw [List.getElem?_eq_none (by simpa using hj), List.getElem?_eq_none (by rw [hxb.1]; exact hj)]
  have hsub : {ω : Draws ℝ | ∃ g', b'.sample N ω = .ok g' ∧ g'.rows = List.ofFn (fun _ : Fin N =>
      List.ofFn (fun j : Fin b'.n => if decide (x[(j : ℕ)]? = some 1) then (1 : ℝ) else 0))} ⊆
      {ω | ∃ g', b'.sample N ω = .ok g' ∧ (N : ℤ) ≤ g'.rows.length ∧ ∀ r ∈ g'.rows, r = x} := by
    rintro ω ⟨g', h1, h2⟩
    refine ⟨g', h1, by rw [h2]; simp, ?_⟩
    intro r hr
    rw [h2] at hr
    obtain ⟨_, hi⟩ := (List.mem_ofFn' _ _).1 hr
    rw [← hi]; exact hxof
  refine le_trans ?_ (measure_mono hsub)
  rw [hgen]
  calc ENNReal.ofReal q ^ (b'.n * N) = ∏ _i : Fin N, ∏ _j : Fin b'.n, ENNReal.ofReal q := by
        rw [Finset.prod_const, Finset.prod_const, Finset.card_univ, Finset.card_univ, Fintype.card_fin,
          Fintype.card_fin, pow_mul]
    _ ≤ _ := by
        refine Finset.prod_le_prod' fun i _ => Finset.prod_le_prod' fun j _ => ?_
        apply ENNReal.ofReal_le_ofReal
        obtain ⟨y, hy, _, _, h1, h0⟩ := hp j j.2
        have hgd : b'.p.getD j 0 = y := by rw [List.getD_eq_getElem?_getD, hy]; rfl
        rw [hgd]
        have hjx : (j : ℕ) < x.length := by rw [hxb.1]; exact j.2
        rw [List.getElem?_eq_getElem hjx] at h1 h0 ⊢
        rcases hxb.2 _ (List.getElem_mem hjx) with hv | hv
        · have := h0 (by rw [hv])
          simp [hv]
          linarith
        · have := h1 (by rw [hv])
          simp [hv]
          exact this

theorem umdad_drifts (h : UMDAd fl cfg = .ok (e, b))
    (hfl0 : fl 0 = 0) (hfl1 : fl 1 = 1) (htr : 1 ≤ selLen fl cfg.base.sizeGen cfg.base.alpha)
    (htl : selLen fl cfg.base.sizeGen cfg.base.alpha ≤ cfg.base.sizeGen) {q : ℝ}
    (hq : Apart fl (selLen fl cfg.base.sizeGen cfg.base.alpha).toNat q)
    {D : Measure (Draws ℝ)} (hD : IndepDraws D (fun _ => unif01) (fun ω => ω)) :
    Drifts e D (BinaryRow cfg.base.nVars) (fun pm => pm.n = cfg.base.nVars ∧ pm.lb = 0 ∧ pm.ub = 1) Unit01
      (ENNReal.ofReal q ^ (cfg.base.nVars * cfg.base.sizeGen.toNat)) := by
  obtain ⟨hm, _, _⟩ := UMDAd_ok h
  have hsz : ((cfg.base.sizeGen.toNat : ℕ) : ℤ) = cfg.base.sizeGen := by omega
  have hplen : ∀ (pm : UniBin ℝ) (g : Gen (List ℝ)) pm', pm.n = cfg.base.nVars →
      (∀ r ∈ g.rows, BinaryRow cfg.base.nVars r) → pm.learn fl g.rows = .ok pm' → pm'.p.length = pm'.n := by
    intro pm g pm' hn hQ hu
    obtain ⟨hne, h1, _, _, hp⟩ := UniBin.learn_ok hu
    rw [hp, h1, hn]
    simp [clipProbs, (colSums_spec hne (fun r hr => (hQ r hr).1)).1]
  refine ⟨?_, ?_, ?_, ?_, ?_, ?_, by rw [hm.truncLen]; exact htr⟩
  · intro ω nz g g' hnz hg
    rw [UMDAd_noise h hnz hg]
  · intro pm g el ω pm' hI _ hu
    rw [hm.updatePm] at hu
    obtain ⟨_, h1, h2, h3, _⟩ := UniBin.learn_ok hu
    rw [h1, h2, h3]; exact hI
  · intro pm g el ω pm' ω' g' hI hne hQ hu _ hsm
    rw [hm.updatePm] at hu
    rw [hm.sample] at hsm
    obtain ⟨h1, _, _, h4⟩ := C21_sample_binary (hplen _ _ _ hI.1 hQ hu) hsm
    rw [(UniBin.learn_ok hu).2.1, hI.1] at h4
    exact ⟨by rw [hm.truncLen, h1]; exact htl, h4⟩
  · intro pm g el ω pm' ω' g' x hI hQ hne hx hu hω hsm r hr
    rw [hm.updatePm] at hu
    rw [hm.sample] at hsm
    have hQg : ∀ r ∈ g.rows, BinaryRow cfg.base.nVars r := fun r hr => by rw [hx r hr]; exact hQ
    obtain ⟨h1, _, _, h4⟩ := C21_sample_binary (hplen _ _ _ hI.1 hQg hu) hsm
    rw [(UniBin.learn_ok hu).2.1, hI.1] at h4
    apply List.ext_getElem?
    intro j
    rcases Nat.lt_or_ge j cfg.base.nVars with hj | hj
    · have hjw : j < x.length := by rw [hQ.1]; exact hj
      rw [List.getElem?_eq_getElem hjw]
      refine fix_step hfl0 hfl1 hω (by rw [hI.1]; exact hj) hI.2.1 hI.2.2
        (hQ.2 _ (List.getElem_mem hjw)) hu ?_ hsm r hr
      intro r' hr'
      rw [hx r' hr', List.getElem?_eq_getElem hjw]
    · rw [List.getElem?_eq_none (by rw [(h4 r hr).1]; exact hj), List.getElem?_eq_none (by rw [hQ.1]; exact hj)]
  · intro pm
    rw [hm.sample]
    exact uniBin_discrete pm _
  · intro pm g el ω pm' x hI hQ hx hk hu
    rw [hm.updatePm] at hu
    rw [hm.sample, hm.truncLen]
    rw [hm.truncLen] at hk
    refine (uniBin_luck hD hq hI.1 hI.2.1 hI.2.2 hQ hx hk hu).trans (measure_mono ?_)
    rintro ω' ⟨g', h1, h2, h3⟩
    rw [hsz] at h1 h2
    exact ⟨g', h1, htl.trans h2, h3⟩

/-- With probability 1 all draws are in `[0, 1)`. -/
theorem unit_ae {D : Measure (Draws ℝ)} (hD : IndepDraws D (fun _ => unif01) (fun ω => ω)) :
    ∀ᵐ ω ∂D, Unit01 ω := by
  have : ∀ᵐ ω ∂D, ∀ j i, 0 ≤ ω i j ∧ ω i j < 1 := ae_all_iff.2 fun j => ae_unit hD rfl
  filter_upwards [this] with ω hω i j using hω j i

/-- The first generation of `UMDAd` is binary: random, or `init_data` that is binary. -/
theorem umdad_init_binary (h : UMDAd fl cfg = .ok (e, b)) (hw : cfg.WF)
    (hdata : ∀ d, cfg.base.initData = some d → ∀ r ∈ d.rows, BinaryRow cfg.base.nVars r) {ω : Draws ℝ}
    {gen : Gen (List ℝ)} (hg : e.initGen ω = .ok gen) : ∀ r ∈ gen.rows, BinaryRow cfg.base.nVars r := by
  obtain ⟨hm, _, _⟩ := UMDAd_ok h
  obtain ⟨hp, hn⟩ := umdadInit_length hw
  cases hi : cfg.base.initData with
  | none =>
    rw [hm.initNone hi] at hg
    obtain ⟨_, _, _, h4⟩ := C21_sample_binary (by rw [hp, hn]) hg
    rw [hn] at h4
    exact h4
  | some d =>
    rw [(hm.initSome d hi).2] at hg
    rw [← Except.ok.inj hg]
    exact hdata d hi

/-- **C79** `UMDAd` with the bounds 0 and 1, at most `size_gen` selected individuals, and a cost function that
gives different costs to different binary strings (or an `argsort` that is stable): the probability that a run evaluates more than `T`
generations and that the generations from number `T` on are not all copies of one and the same string is at most
`(1 - q ^ (n_variables * size_gen)) ^ T`.  Here `q` is a lower bound for the probabilities learned for the bits
of a selected individual; without rounding `q = 1 / truncation_length`.  If there is an elite, that string is
moreover the best one evaluated in the whole run. -/
theorem C79_UMDAd_rate (hv : env.Valid) (h : UMDAd fl cfg = .ok (e, b)) (hw : cfg.WF) (hlo : cfg.lower = 0)
    (hup : cfg.upper = 1)
    (hdata : ∀ d, cfg.base.initData = some d → ∀ r ∈ d.rows, BinaryRow cfg.base.nVars r)
    (hfl0 : fl 0 = 0) (hfl1 : fl 1 = 1) (htr : 1 ≤ selLen fl cfg.base.sizeGen cfg.base.alpha)
    (htl : selLen fl cfg.base.sizeGen cfg.base.alpha ≤ cfg.base.sizeGen) {q : ℝ}
    (hq : Apart fl (selLen fl cfg.base.sizeGen cfg.base.alpha).toNat q)
    (hg : TiesHarmless env g (BinaryRow cfg.base.nVars))
    {D : Measure (Draws ℝ)} [IsProbabilityMeasure D] (hD : IndepDraws D (fun _ => unif01) (fun ω => ω)) (T : ℕ) :
    eachGen D {ω | ∃ res s, minimize env e (fun _ => g) ftol b { ρ with sample := ω } = .ok (res, s) ∧
      T < res.history.length ∧ ¬ ∃ x, SettledFrom T x s ∧
        (1 ≤ selLen fl cfg.base.sizeGen cfg.base.eliteFactor → BestOfRun g x s)} ≤
      (1 - ENNReal.ofReal q ^ (cfg.base.nVars * cfg.base.sizeGen.toNat)) ^ T := by
  obtain ⟨hm, _, hb⟩ := UMDAd_ok h
  have hd := umdad_drifts h hfl0 hfl1 htr htl hq hD
  have hel := hm.eliteLen
  simp only at hel
  rw [← hel]
  refine unsettled_probability hv hd ?_ (unit_ae hD) hg (by rw [hb]; exact ⟨rfl, hlo, hup⟩)
    (fun gen hgen => umdad_init_binary h hw hdata hgen) T
  refine pow_le_one₀ zero_le ?_
  rw [ENNReal.ofReal_le_one]
  exact hq.le_one

/-- **C79** premature convergence of `UMDAd` with the bounds 0 and 1, without early stopping and with a cost
function without ties (or a stable `argsort`): for every `ε > 0` there is a number of generations after which, with probability at least
`1 - ε`, the run only evaluates copies of one string, however large `max_iter` is. -/
theorem C79_UMDAd (hv : env.Valid) (hw : cfg.WF) (hlo : cfg.lower = 0) (hup : cfg.upper = 1)
    (hinit : cfg.base.initData = none) (hfl0 : fl 0 = 0) (hfl1 : fl 1 = 1)
    (hcpu : cfg.base.parallel = true → (env.cpu : ℤ) ≤ cfg.base.sizeGen)
    (htr : 1 ≤ selLen fl cfg.base.sizeGen cfg.base.alpha)
    (htl : selLen fl cfg.base.sizeGen cfg.base.alpha ≤ cfg.base.sizeGen) {q : ℝ}
    (hq : Apart fl (selLen fl cfg.base.sizeGen cfg.base.alpha).toNat q)
    (hg : TiesHarmless env g (BinaryRow cfg.base.nVars))
    {D : Measure (Draws ℝ)} [IsProbabilityMeasure D] (hD : IndepDraws D (fun _ => unif01) (fun ω => ω))
    {ε : ENNReal} (hε : 0 < ε) :
    ∃ T : ℕ, ∀ m : ℕ, T < m → ∃ e b,
      UMDAd fl { cfg with base := { cfg.base with maxIter := m, deadIter := 0 } } = .ok (e, b) ∧
      eachGen D {ω | ¬ ∃ res s, minimize env e (fun _ => g) ftol b { ρ with sample := ω } = .ok (res, s) ∧
        ∃ x, SettledFrom T x s ∧
          (1 ≤ selLen fl cfg.base.sizeGen cfg.base.eliteFactor → BestOfRun g x s)} ≤ ε := by
  have hlt : 1 - ENNReal.ofReal q ^ (cfg.base.nVars * cfg.base.sizeGen.toNat) < 1 :=
    ENNReal.sub_lt_self ENNReal.one_ne_top one_ne_zero (pow_ne_zero _ (by
      rw [Ne, ENNReal.ofReal_eq_zero, not_le]; exact hq.pos))
  obtain ⟨T, hT⟩ := ((tendsto_order.1 (ENNReal.tendsto_pow_atTop_nhds_zero_of_lt_one hlt)).2 ε
    hε).exists_forall_of_atTop
  refine ⟨T, fun m hm => ?_⟩
  set cfg' : UMDAdCfg ℝ := { cfg with base := { cfg.base with maxIter := m, deadIter := 0 } } with hc'
  have hw' : cfg'.WF := ⟨hw.vector, hw.data⟩
  have hrunAll : ∀ ω : ℕ → Draws ℝ, ∃ e b, UMDAd fl cfg' = .ok (e, b) ∧
      ∃ res s, minimize env e (fun _ => g) ftol b { ρ with sample := ω } = .ok (res, s) := by
    intro ω
    refine C53_UMDAd_never_raises hv hw' ?_ ?_ ?_ ?_ hcpu htr ?_
    · simp [hc']
    · change cfg.lower < cfg.upper
      rw [hlo, hup]; norm_num
    · intro d hd
      rw [hc'] at hd
      simp [hinit] at hd
    · exact htr.trans htl
    · intro k r; simp [IsNum, PyCost.eq]
  obtain ⟨e, b, heb, _⟩ := hrunAll (fun _ _ _ => 0)
  refine ⟨e, b, heb, le_trans (measure_mono ?_)
    ((C79_UMDAd_rate (cfg := cfg') (ftol := ftol) (ρ := ρ) hv heb hw' hlo hup
      (fun d hd => by rw [hc'] at hd; simp [hinit] at hd) hfl0 hfl1 htr htl hq hg hD T).trans
        (hT T le_rfl).le)⟩
  intro ω hω
  obtain ⟨e', b', heb', res, s, hrun⟩ := hrunAll ω
  rw [heb] at heb'
  obtain ⟨rfl, rfl⟩ := Prod.mk.inj (Except.ok.inj heb')
  obtain ⟨hmk, _, _⟩ := UMDAd_ok heb
  have hlen := history_max (m := m) (by rw [hmk.deadIter]) (by rw [hmk.maxIter]) hrun
  exact ⟨res, s, hrun, by omega, fun hx => hω ⟨res, s, hrun, hx⟩⟩

end binary

section categorical
variable {α : Type} [LinearOrder α] {fl : ℝ → ℝ} {cfg : CatCfg α ℝ} {env : Env ℝ} {g : List (Cat α) → ℝ} {ftol : ℝ}
variable {ρ : Rand (Draws ℝ)} {e : Eda (List (Cat α)) (UniCat ℕ α ℝ) (Draws ℝ)} {b : UniCat ℕ α ℝ}

theorem mapM_congr' {A B : Type} {f h : A → Except PyErr B} : ∀ {l : List A}, (∀ a ∈ l, f a = h a) →
    l.mapM f = l.mapM h
  | [], _ => rfl
  | a :: l, hl => by
    rw [List.mapM_cons, List.mapM_cons, hl a List.mem_cons_self,
      mapM_congr' (fun a' ha => hl a' (List.mem_cons_of_mem _ ha))]

theorem measurable_pickFrom (total : ℝ) : ∀ (acc : ℝ) (ps : List ℝ),
    Measurable (fun u : ℝ => pickFrom total acc u ps)
  | _, [] => measurable_const
  | acc, p :: ps => by
    unfold pickFrom
    exact Measurable.ite (measurableSet_lt measurable_id measurable_const) measurable_const
      ((measurable_pickFrom total (acc + p) ps).add measurable_const)

/-- The generation sampled by the univariate categorical model only depends on the positions found in the
cumulative sums. -/
theorem uniCat_discrete (c : UniCat ℕ α ℝ) (size : ℤ) : Discretely (fun ω : Draws ℝ => c.sample size ω) := by
  let p : ℕ → List ℝ := fun l => ((c.table l).getD []).map Prod.snd
  refine ⟨Fin size.toNat → Fin c.vars.length → ℕ, inferInstance, inferInstance, inferInstance,
    fun ω i j => pickFrom (p c.vars[j]).sum 0 (ω i j) (p c.vars[j]), ?_, ?_⟩
  · refine measurable_pi_lambda _ fun i => measurable_pi_lambda _ fun j => ?_
    exact (measurable_pickFrom _ _ _).comp ((measurable_pi_apply _).comp (measurable_pi_apply _))
  · intro x y hxy
    have hcol : ∀ li ∈ c.vars.zipIdx, c.sampleCol size x li.2 li.1 = c.sampleCol size y li.2 li.1 := by
      rintro ⟨l, j⟩ hlj
      obtain ⟨_, hj, hl⟩ := List.mem_zipIdx hlj
      simp only [Nat.zero_add, Nat.sub_zero] at hj hl
      have hpick : ∀ i < size.toNat, pickFrom (p l).sum 0 (x i j) (p l) = pickFrom (p l).sum 0 (y i j) (p l) := by
        intro i hi
        have := congrFun (congrFun hxy ⟨i, hi⟩) ⟨j, hj⟩
        rw [hl]; exact this
      unfold UniCat.sampleCol
      cases ht : c.table l with
      | none => rfl
      | some t =>
        have hp : p l = t.map Prod.snd := by simp only [p, ht, Option.getD_some]
        rw [hp] at hpick
        have hch : npChoice (t.map Prod.fst) (t.map Prod.snd) size (fun i => x i j) =
            npChoice (t.map Prod.fst) (t.map Prod.snd) size (fun i => y i j) := by
          unfold npChoice
          split_ifs <;> try rfl
          refine mapM_congr' fun i hi => ?_
          unfold pickVal
          rw [hpick i (List.mem_range.1 hi)]
        simp only [hch]
    simp only [UniCat.sample]
    rw [mapM_congr' hcol]

/-- Learning only looks at the columns of the variables. -/
theorem learnCats_cols {data : Gen (List (Cat α))} {m : ℕ} : ∀ {ls : List ℕ} {i : ℕ}
    {tbl tbl' : ℕ → Option (List (Cat α × ℝ))}, i + ls.length ≤ m → learnCats data i ls tbl = .ok tbl' →
      learnCats { data with cols := m } i ls tbl = .ok tbl'
  | [], _, _, _, _, h => h
  | l :: ls, i, tbl, tbl', hm, h => by
    simp only [List.length_cons] at hm
    unfold learnCats at h ⊢
    rw [if_neg (by simp only; omega)]
    split_ifs at h
    split at h
    · cases h
    rename_i probs hprobs
    simp only [hprobs]
    exact learnCats_cols (by omega) h

/-- A value of the list is picked with probability at least one over its length. -/
theorem pickedFrom_ge {V : Type} [MeasurableSpace V] [MeasurableSingletonClass V] {l : List V} {v : V}
    (hv : v ∈ l) : (l.length : ENNReal)⁻¹ ≤ pickedFrom l {v} := by
  unfold pickedFrom
  rw [Measure.smul_apply, smul_eq_mul]
  have h1 : 1 ≤ (l.map Measure.dirac).sum {v} := by
    induction l with
    | nil => cases hv
    | cons w ws ih =>
      rw [List.map_cons, List.sum_cons, Measure.add_apply]
      rcases List.mem_cons.1 hv with rfl | hv
      · rw [Measure.dirac_apply_of_mem (Set.mem_singleton _)]; exact le_self_add
      · exact (ih hv).trans le_add_self
  calc (l.length : ENNReal)⁻¹ = (l.length : ENNReal)⁻¹ * 1 := (mul_one _).symm
    _ ≤ _ := by gcongr

/-- A model learned from at most `k` individuals fills a generation with copies of one of them with probability
at least `(1 / k) ^ (n * size)`. -/
theorem uniCat_luck {D : Measure (Draws ℝ)} (hD : IndepDraws D (fun _ => unif01) (fun ω => ω)) {k n N : ℕ}
    (hn0 : n ≠ 0) {c c' : UniCat ℕ α ℝ} (hn : c.vars = List.range n) {data : Gen (List (Cat α))}
    (hb : ∀ r ∈ data.rows, r.length = n) {x : List (Cat α)} (hx : x ∈ data.rows) (hk : data.rows.length ≤ k)
    (h : c.learn data = .ok c') :
    ((k : ENNReal)⁻¹) ^ (n * N) ≤ D {ω | ∃ g', c'.sample N ω = .ok g' ∧ (N : ℤ) ≤ g'.rows.length ∧
      ∀ r ∈ g'.rows, r = x} := by
  have hvl : c.vars.length = n := by rw [hn, List.length_range]
  have hlearn : c.learn { data with cols := n } = .ok c' := by
    unfold UniCat.learn at h ⊢
    split at h
    · cases h
    rename_i tbl htbl
    rw [learnCats_cols (by rw [hvl, Nat.zero_add]) htbl]
    exact h
  have hcells := C74_UMDAcat (size := (N : ℤ)) hD (data := { data with cols := n })
    (by rw [hn]; exact List.nodup_range) (by rw [hn]; simpa using hn0) hb (List.ne_nil_of_mem hx) hlearn (by omega)
  rw [hvl] at hcells
  have hxl := hb x hx
  have hgen := indepCells_prob hcells (fun _ j => x[(j : ℕ)]'(by rw [hxl]; exact j.2))
  simp only [Int.toNat_natCast] at hgen
  have hxof : List.ofFn (fun j : Fin n => x[(j : ℕ)]'(by rw [hxl]; exact j.2)) = x := by
    subst hxl
    exact List.ofFn_getElem
  rw [hxof] at hgen
  have hsub : {ω : Draws ℝ | ∃ g', c'.sample N ω = .ok g' ∧ g'.rows = List.ofFn (fun _ : Fin N => x)} ⊆
      {ω | ∃ g', c'.sample N ω = .ok g' ∧ (N : ℤ) ≤ g'.rows.length ∧ ∀ r ∈ g'.rows, r = x} := by
    rintro ω ⟨g', h1, h2⟩
    refine ⟨g', h1, by rw [h2]; simp, ?_⟩
    intro r hr
    rw [h2] at hr
    obtain ⟨_, hi⟩ := (List.mem_ofFn' _ _).1 hr
    exact hi.symm
  refine le_trans ?_ (measure_mono hsub)
  rw [hgen]
  calc ((k : ENNReal)⁻¹) ^ (n * N) = ∏ _i : Fin N, ∏ _j : Fin n, (k : ENNReal)⁻¹ := by
        rw [Finset.prod_const, Finset.prod_const, Finset.card_univ, Finset.card_univ, Fintype.card_fin,
          Fintype.card_fin, pow_mul]
    _ ≤ _ := by
        refine Finset.prod_le_prod' fun i _ => Finset.prod_le_prod' fun j _ => ?_
        have hmem : x[(j : ℕ)]'(by rw [hxl]; exact j.2) ∈ column data.rows j := by
          unfold column
          exact List.mem_filterMap.2 ⟨x, hx, List.getElem?_eq_getElem _⟩
        refine le_trans ?_ (pickedFrom_ge hmem)
        refine ENNReal.inv_le_inv.2 ?_
        have : (column data.rows j).length ≤ data.rows.length := List.length_filterMap_le _ _
        exact_mod_cast this.trans hk

theorem umdacat_drifts (h : UMDAcat fl cfg = .ok (e, b)) (hn0 : cfg.base.nVars ≠ 0)
    (htr : 1 ≤ selLen fl cfg.base.sizeGen cfg.base.alpha)
    (htl : selLen fl cfg.base.sizeGen cfg.base.alpha ≤ cfg.base.sizeGen)
    {D : Measure (Draws ℝ)} (hD : IndepDraws D (fun _ => unif01) (fun ω => ω)) :
    Drifts e D cfg.Legal (fun c => c.vars = List.range cfg.base.nVars) Unit01
      ((((selLen fl cfg.base.sizeGen cfg.base.alpha).toNat : ENNReal)⁻¹) ^
        (cfg.base.nVars * cfg.base.sizeGen.toNat)) := by
  obtain ⟨he, _⟩ := UMDAcat_ok h
  obtain ⟨hm, _⟩ := catEda_ok he
  have hsd := uniCat_sound (α := α) (K := ℝ) cfg.base.nVars cfg.base.sizeGen
  have hsz : ((cfg.base.sizeGen.toNat : ℕ) : ℤ) = cfg.base.sizeGen := by omega
  refine ⟨?_, ?_, ?_, ?_, ?_, ?_, by rw [hm.truncLen]; exact htr⟩
  · intro ω nz g g' hnz hg
    rw [hm.mkNoise] at hnz
    obtain rfl := Except.ok.inj hnz
    rw [(addEmptyStr_ok hg).1]
  · intro pm g el ω pm' hI _ hu
    rw [hm.updatePm] at hu
    exact hsd.keep (ω := ω) hI hu
  · intro pm g el ω pm' ω' g' hI hne hQ hu hω hsm
    rw [hm.updatePm] at hu
    rw [hm.sample] at hsm
    obtain ⟨_, _, _, h4, _⟩ := UniCat.sample_ok hsm
    refine ⟨by rw [hm.truncLen, h4]; exact htl, fun r hr => ?_⟩
    obtain ⟨hrl, hval⟩ := hsd.sound (ω := ω) hI hu hsm hω r hr
    refine ⟨hrl, fun j v hj => ?_⟩
    obtain ⟨r', hr', hj'⟩ := hval j v hj
    exact (hQ r' hr').2 j v hj'
  · intro pm g el ω pm' ω' g' x hI hQ hne hx hu hω hsm r hr
    rw [hm.updatePm] at hu
    rw [hm.sample] at hsm
    obtain ⟨hrl, hval⟩ := hsd.sound (ω := ω) hI hu hsm hω r hr
    apply List.ext_getElem?
    intro j
    rcases Nat.lt_or_ge j cfg.base.nVars with hj | hj
    · obtain ⟨r', hr', hj'⟩ := hval j _ (List.getElem?_eq_getElem (by omega))
      rw [List.getElem?_eq_getElem (by omega), ← hj', hx r' hr']
    · rw [List.getElem?_eq_none (by omega), List.getElem?_eq_none (by rw [hQ.1]; exact hj)]
  · intro pm
    rw [hm.sample]
    exact uniCat_discrete pm _
  · intro pm g el ω pm' x hI hQ hx hk hu
    rw [hm.updatePm] at hu
    rw [hm.sample, hm.truncLen]
    rw [hm.truncLen] at hk
    refine (uniCat_luck hD hn0 hI (fun r hr => (hQ r hr).1) hx hk hu).trans (measure_mono ?_)
    rintro ω' ⟨g', h1, h2, h3⟩
    rw [hsz] at h1 h2
    exact ⟨g', h1, htl.trans h2, h3⟩

/-- The first generation of `UMDAcat` consists of declared values. -/
theorem umdacat_init_legal (h : UMDAcat fl cfg = .ok (e, b)) (hw : cfg.WF) {ω : Draws ℝ} (hω : Unit01 ω)
    {gen : Gen (List (Cat α))} (hg : e.initGen ω = .ok gen) : ∀ r ∈ gen.rows, cfg.Legal r := by
  obtain ⟨he, _⟩ := UMDAcat_ok h
  exact (cat_rowInv (ρ := ⟨ω, fun _ _ => 0, fun _ _ _ => 0, fun _ _ _ => 0⟩) he hw
    (uniCat_sound (α := α) (K := ℝ) cfg.base.nVars cfg.base.sizeGen) hω (by intro t i j; simp)).init gen hg

/-- **C79** `UMDAcat` with at most `size_gen` selected individuals and a cost function that gives different
costs to different individuals of declared values (or a stable `argsort`): the probability that a run evaluates more than `T` generations and that the
generations from number `T` on are not all copies of one and the same individual is at most
`(1 - (1 / truncation_length) ^ (n_variables * size_gen)) ^ T`. -/
theorem C79_UMDAcat_rate (hv : env.Valid) (h : UMDAcat fl cfg = .ok (e, b)) (hw : cfg.WF)
    (hn0 : cfg.base.nVars ≠ 0) (hi : Unit01 ρ.init)
    (htr : 1 ≤ selLen fl cfg.base.sizeGen cfg.base.alpha)
    (htl : selLen fl cfg.base.sizeGen cfg.base.alpha ≤ cfg.base.sizeGen)
    (hg : TiesHarmless env g cfg.Legal)
    {D : Measure (Draws ℝ)} [IsProbabilityMeasure D] (hD : IndepDraws D (fun _ => unif01) (fun ω => ω)) (T : ℕ) :
    eachGen D {ω | ∃ res s, minimize env e (fun _ => g) ftol b { ρ with sample := ω } = .ok (res, s) ∧
      T < res.history.length ∧ ¬ ∃ x, SettledFrom T x s ∧
        (1 ≤ selLen fl cfg.base.sizeGen cfg.base.eliteFactor → BestOfRun g x s)} ≤
      (1 - (((selLen fl cfg.base.sizeGen cfg.base.alpha).toNat : ENNReal)⁻¹) ^
        (cfg.base.nVars * cfg.base.sizeGen.toNat)) ^ T := by
  obtain ⟨he, hb⟩ := UMDAcat_ok h
  obtain ⟨hm, _⟩ := catEda_ok he
  have hel := hm.eliteLen
  simp only at hel
  rw [← hel]
  refine unsettled_probability hv (umdacat_drifts h hn0 htr htl hD) ?_ (unit_ae hD) hg (by rw [hb]; rfl)
    (fun gen hgen => umdacat_init_legal h hw hi hgen) T
  refine pow_le_one₀ zero_le (ENNReal.inv_le_one.2 ?_)
  exact_mod_cast (by omega : 1 ≤ (selLen fl cfg.base.sizeGen cfg.base.alpha).toNat)

/-- **C79** premature convergence of `UMDAcat` with string categories, without early stopping and with a cost
function without ties (or a stable `argsort`): for every `ε > 0` there is a number of generations after which, with probability at least
`1 - ε`, the run only evaluates copies of one individual, however large `max_iter` is. -/
theorem C79_UMDAcat (hv : env.Valid) {k : ℕ} (hval : CatValid env.cpu fl cfg k) (hi : Unit01 ρ.init)
    (htl : selLen fl cfg.base.sizeGen cfg.base.alpha ≤ cfg.base.sizeGen)
    (hg : TiesHarmless env g cfg.Legal)
    {D : Measure (Draws ℝ)} [IsProbabilityMeasure D] (hD : IndepDraws D (fun _ => unif01) (fun ω => ω))
    {ε : ENNReal} (hε : 0 < ε) :
    ∃ T : ℕ, ∀ m : ℕ, T < m → ∃ e b,
      UMDAcat fl { cfg with base := { cfg.base with maxIter := m, deadIter := 0 } } = .ok (e, b) ∧
      eachGen D {ω | ¬ ∃ res s, minimize env e (fun _ => g) ftol b { ρ with sample := ω } = .ok (res, s) ∧
        ∃ x, SettledFrom T x s ∧
          (1 ≤ selLen fl cfg.base.sizeGen cfg.base.eliteFactor → BestOfRun g x s)} ≤ ε := by
  have htr := hval.trunc
  have hlt : 1 - (((selLen fl cfg.base.sizeGen cfg.base.alpha).toNat : ENNReal)⁻¹) ^
      (cfg.base.nVars * cfg.base.sizeGen.toNat) < 1 :=
    ENNReal.sub_lt_self ENNReal.one_ne_top one_ne_zero (pow_ne_zero _ (by simp))
  obtain ⟨T, hT⟩ := ((tendsto_order.1 (ENNReal.tendsto_pow_atTop_nhds_zero_of_lt_one hlt)).2 ε
    hε).exists_forall_of_atTop
  refine ⟨T, fun m hm => ?_⟩
  set cfg' : CatCfg α ℝ := { cfg with base := { cfg.base with maxIter := m, deadIter := 0 } } with hc'
  have hval' : CatValid env.cpu fl cfg' k :=
    ⟨hval.pos, by simp [hc'], hval.vars, hval.size, hval.cpu, hval.trunc, hval.space, hval.data⟩
  have hw' : cfg'.WF := fun d hd => (hval'.data d hd).2.2.1
  have hrunAll : ∀ ω : ℕ → Draws ℝ, (∀ t, Unit01 (ω t)) → ∃ e b, UMDAcat fl cfg' = .ok (e, b) ∧
      ∃ res s, minimize env e (fun _ => g) ftol b { ρ with sample := ω } = .ok (res, s) :=
    fun ω hω => C53_UMDAcat_never_raises (ρ := { ρ with sample := ω }) hv hval' hi hω
      (by intro k r; simp [IsNum, PyCost.eq])
  obtain ⟨e, b, heb, _⟩ := hrunAll (fun _ _ _ => 0) (by intro t i j; simp)
  refine ⟨e, b, heb, le_trans (measure_mono_ae ?_)
    ((C79_UMDAcat_rate (cfg := cfg') (ftol := ftol) (ρ := ρ) (g := g) hv heb hw' hval.vars hi htr htl hg hD T).trans
        (hT T le_rfl).le)⟩
  have hunit : ∀ᵐ ω ∂eachGen D, ∀ t, Unit01 (ω t) := by
    refine ae_all_iff.2 fun t => ?_
    exact (measurePreserving_eval_infinitePi (fun _ : ℕ => D) t).quasiMeasurePreserving.ae (unit_ae hD)
  filter_upwards [hunit] with ω hω hnot
  obtain ⟨e', b', heb', res, s, hrun⟩ := hrunAll ω hω
  rw [heb] at heb'
  obtain ⟨rfl, rfl⟩ := Prod.mk.inj (Except.ok.inj heb')
  obtain ⟨he, _⟩ := UMDAcat_ok heb
  obtain ⟨hmk, _⟩ := catEda_ok he
  have hlen := history_max (m := m) (by rw [hmk.deadIter]) (by rw [hmk.maxIter]) hrun
  exact ⟨res, s, hrun, by omega, fun hx => hnot ⟨res, s, hrun, hx⟩⟩

end categorical

/-! ### Ties -/

/-- Insertion sort is stable. -/
theorem stableArgsort_stable : StableSort (stableArgsort (C := ℝ)) := by
  intro cs
  have hnd : (stableArgsort cs).Nodup :=
    (stableArgsort_isArgsort.perm cs).nodup_iff.2 List.nodup_range
  rw [List.pairwise_iff_forall_sublist]
  intro i j hij he
  by_contra hlt
  have hne : i ≠ j := by
    intro h
    have := hij.nodup hnd
    simp [h] at this
  have hmem : ∀ k ∈ [i, j], k < cs.length := fun k hk =>
    List.mem_range.1 ((stableArgsort_isArgsort.perm cs).mem_iff.1 (hij.subset hk))
  have hi := hmem i (by simp)
  have hj := hmem j (by simp)
  have hsub : [j, i].Sublist (List.range cs.length) := by
    have h1 : [j, i].Pairwise (· < ·) := by simp; omega
    have h2 : [j, i].Subperm (List.range cs.length) :=
      (List.nodup_cons.2 ⟨by simpa using hne.symm, by simp⟩).subperm (by
        intro k hk; simp at hk; rcases hk with rfl | rfl <;> simpa)
    exact List.sublist_of_subperm_of_pairwise h2 h1 (by
      have := List.pairwise_lt_range (n := cs.length); exact this)
  have hrel : posLe cs j i := by
    unfold posLe
    rw [he, List.getElem?_eq_getElem hj]
    exact leNanLast_refl _
  have hji : [j, i].Sublist (stableArgsort cs) := List.pair_sublist_insertionSort hrel hsub
  -- both orders are impossible
  obtain ⟨a, b, ha, hb, hab⟩ : ∃ a b : ℕ, (stableArgsort cs)[a]? = some i ∧ (stableArgsort cs)[b]? = some j ∧
      a < b := by
    obtain ⟨f, hf⟩ := List.sublist_iff_exists_orderEmbedding_getElem?_eq.1 hij
    exact ⟨f 0, f 1, by rw [← hf 0]; rfl, by rw [← hf 1]; rfl, f.lt_iff_lt.2 Nat.zero_lt_one⟩
  obtain ⟨a', b', ha', hb', hab'⟩ : ∃ a b : ℕ, (stableArgsort cs)[a]? = some j ∧
      (stableArgsort cs)[b]? = some i ∧ a < b := by
    obtain ⟨f, hf⟩ := List.sublist_iff_exists_orderEmbedding_getElem?_eq.1 hji
    exact ⟨f 0, f 1, by rw [← hf 0]; rfl, by rw [← hf 1]; rfl, f.lt_iff_lt.2 Nat.zero_lt_one⟩
  have e2 : a = b' := (List.getElem?_inj (List.getElem?_eq_some_iff.1 ha).1 hnd).1 (ha.trans hb'.symm)
  have e3 : b = a' := (List.getElem?_inj (List.getElem?_eq_some_iff.1 hb).1 hnd).1 (hb.trans ha'.symm)
  omega

/-- An `argsort` that reverses the order of equal costs. -/
noncomputable def backSort (l : List ℝ) : List ℕ := (List.range l.length).reverse.insertionSort (posLe l)

theorem backSort_isArgsort : IsArgsort backSort where
  perm l := (List.perm_insertionSort _ _).trans (List.reverse_perm _)
  sorted l := by
    have : Std.Total (posLe l) := ⟨by
      intro i j
      unfold posLe
      cases l[i]? <;> cases l[j]? <;> simp [leNanLast_total]⟩
    have : IsTrans ℕ (posLe l) := ⟨by
      intro i j k
      unfold posLe
      cases l[i]? <;> cases l[j]? <;> cases l[k]? <;> simp
      exact leNanLast_trans⟩
    refine (List.pairwise_insertionSort (posLe l) (List.range l.length).reverse).imp ?_
    intro i j h a b ha hb
    unfold posLe at h
    rw [ha, hb] at h
    exact h

/-- The order of equal costs is reversed. -/
theorem backSort_const {l : List ℝ} (h : ∀ c ∈ l, c = 0) : backSort l = (List.range l.length).reverse := by
  unfold backSort
  refine List.Pairwise.insertionSort_eq (List.pairwise_of_forall_mem_list ?_)
  intro i hi j hj
  simp only [List.mem_reverse, List.mem_range] at hi hj
  unfold posLe
  rw [List.getElem?_eq_getElem hi, List.getElem?_eq_getElem hj, h _ (List.getElem_mem hi), h _ (List.getElem_mem hj)]
  exact leNanLast_refl _

noncomputable def backEnv : Env ℝ := { argsort := backSort, cpu := 1, sched := fun _ => [0] }

theorem backEnv_valid : backEnv.Valid where
  argsort := backSort_isArgsort
  cpu := by decide
  sched := by
    intro k i hi
    have hi : i < 1 := hi
    simp [backEnv, Nat.lt_one_iff.1 hi]

/-- One bit, two individuals per generation, all selected, all in the elite. -/
noncomputable def tieCfg (m : ℕ) : UMDAdCfg ℝ :=
  { base := { sizeGen := 2, maxIter := m, deadIter := 0, nVars := 1, alpha := 1, eliteFactor := 1,
              parallel := false, initData := some ⟨.int, 1, [[0], [1]]⟩, wNoise := none }
    vector := none, lower := 0, upper := 1 }

section ties
variable {ρ : Rand (Draws ℝ)} {m : ℕ} {e : Eda (List ℝ) (UniBin ℝ) (Draws ℝ)} {b : UniBin ℝ}

/-- Generation and elite end with `[0]` and `[1]`, in some order, and all costs are 0. -/
structure TieInv (s : St (List ℝ) ℝ (UniBin ℝ)) : Prop where
  evals : s.evals.length = s.gen.rows.length ∧ ∀ c ∈ s.evals, c = 0
  evalsElite : s.evalsElite.length = s.elite.rows.length ∧ ∀ c ∈ s.evalsElite, c = 0
  last : ∃ pre, s.gen.rows ++ s.elite.rows = pre ++ [[0], [1]] ∨ s.gen.rows ++ s.elite.rows = pre ++ [[1], [0]]
  pm : s.pm.n = 1 ∧ s.pm.lb = 0 ∧ s.pm.ub = 1

theorem tie_stored {rows : List (List ℝ)} {k : ℕ} {ev : Evaluated (List ℝ) ℝ} {par : Bool}
    (h : checkGeneration backEnv par (fun _ _ => (0 : ℝ)) k rows = .ok ev) :
    ev.stored.length = rows.length ∧ ∀ c ∈ ev.stored, c = 0 := by
  refine ⟨check_stored_length backEnv_valid h, ?_⟩
  rw [check_stored backEnv_valid h, callRows_same]
  intro c hc
  obtain ⟨_, _, rfl⟩ := List.mem_map.1 hc
  rfl

/-- The last two rows are selected. -/
theorem tie_take (l : List (List ℝ)) (a b : List ℝ) :
    takeIdx (l ++ [a, b]) ((List.range (l ++ [a, b]).length).reverse.take 2) = [b, a] := by
  have : (l ++ [a, b]).length = l.length + 1 + 1 := by simp
  rw [this, List.range_succ, List.range_succ, List.reverse_append, List.reverse_append]
  simp [takeIdx]

theorem tie_truncation (h : UMDAd id (tieCfg m) = .ok (e, b)) {s s1 : St (List ℝ) ℝ (UniBin ℝ)} (hi : TieInv s)
    (ht : truncation backEnv e s = .ok s1) :
    (s1.gen.rows = [[0], [1]] ∨ s1.gen.rows = [[1], [0]]) ∧ s1.elite.rows = s1.gen.rows ∧
      s1.evalsElite.length = s1.elite.rows.length ∧ (∀ c ∈ s1.evalsElite, c = 0) := by
  obtain ⟨hm, _, _⟩ := UMDAd_ok h
  have htl : e.truncLen = 2 := by
    rw [hm.truncLen]; norm_num [tieCfg, selLen, pyInt, Num.truncZ]
  have hel : e.eliteLen = 2 := by
    rw [hm.eliteLen]; norm_num [tieCfg, selLen, pyInt, Num.truncZ]
  have hal : Aligned s := ⟨hi.evals.1, hi.evalsElite.1⟩
  have hal1 := truncation_aligned backEnv_valid hal ht
  unfold truncation Gen.concat at ht
  split at ht
  · cases ht
  rename_i gen hgen
  split at hgen
  swap
  · cases hgen
  obtain rfl := Except.ok.inj hgen
  obtain rfl := Except.ok.inj ht
  have hz : ∀ c ∈ s.evals ++ s.evalsElite, c = 0 := by
    intro c hc
    rcases List.mem_append.1 hc with hc | hc
    · exact hi.evals.2 c hc
    · exact hi.evalsElite.2 c hc
  have hlen : (s.evals ++ s.evalsElite).length = (s.gen.rows ++ s.elite.rows).length := by
    rw [List.length_append, List.length_append, hi.evals.1, hi.evalsElite.1]
  have hord : backEnv.argsort (s.evals ++ s.evalsElite) =
      (List.range (s.gen.rows ++ s.elite.rows).length).reverse := by
    rw [← hlen]; exact backSort_const hz
  refine ⟨?_, ?_, hal1.2, ?_⟩
  · simp only [hord, htl, Gen.takeIdx, sliceTo]
    norm_num
    obtain ⟨pre, hp | hp⟩ := hi.last
    · right
      rw [← List.length_append, hp]; exact tie_take pre _ _
    · left
      rw [← List.length_append, hp]; exact tie_take pre _ _
  · simp only [hel, htl]
  · intro c hc
    exact hz c (mem_of_mem_takeIdx hc)

theorem tie_step (h : UMDAd id (tieCfg m) = .ok (e, b)) {nz : Gen (List ℝ) → Except PyErr (Gen (List ℝ))}
    {t : ℕ} {s s' : St (List ℝ) ℝ (UniBin ℝ)} {brk : Bool} (hnz : e.mkNoise ρ.noise = .ok nz) (hi : TieInv s)
    (hst : step backEnv e (fun _ _ => 0) 0 ρ nz t s = .ok (s', brk)) :
    TieInv s' ∧ s'.pm = ⟨1, 0, 1, [1 / 2]⟩ ∧ (⟨1, 0, 1, [1 / 2]⟩ : UniBin ℝ).sample 2 (ρ.sample t) = .ok s'.gen := by
  obtain ⟨hm, _, _⟩ := UMDAd_ok h
  obtain ⟨s1, noisy, ev, best, i, ind, hs⟩ := step_ok hst
  obtain ⟨h1, h2, h3, h4⟩ := tie_truncation h hi hs.trunc
  have hnr : noisy.rows = s1.gen.rows := by rw [UMDAd_noise h hnz hs.noise]
  have hu := hs.update
  rw [hm.updatePm] at hu
  have hrect : Rect 1 noisy.rows := by
    rw [hnr]
    rcases h1 with h1 | h1 <;> rw [h1] <;> intro r hr <;> simp at hr <;> rcases hr with rfl | rfl <;> rfl
  obtain ⟨k1, k2, k3, k4, k5⟩ := C20_learn_frequencies (by rw [hi.pm.2.1, hi.pm.2.2]; norm_num) hrect hu
  have hmean : mean (col noisy.rows 0) = 1 / 2 := by
    rw [hnr]
    rcases h1 with h1 | h1 <;> rw [h1] <;> norm_num [mean, col]
  have hp : s'.pm.p = [1 / 2] := by
    have h0 := k5 0 (by norm_num)
    rw [hmean, hi.pm.2.1, hi.pm.2.2] at h0
    obtain ⟨y, hy⟩ := List.length_eq_one_iff.1 k1
    rw [hy] at h0 ⊢
    simp only [List.getElem?_cons_zero, Option.some.injEq] at h0
    rw [h0]
    norm_num [clip]
  have hpm : s'.pm = ⟨1, 0, 1, [1 / 2]⟩ := by
    have e1 := k4.trans hi.pm.1
    have e2 := k2.trans hi.pm.2.1
    have e3 := k3.trans hi.pm.2.2
    cases hq : s'.pm with
    | mk n lb ub p =>
      rw [hq] at hp e1 e2 e3
      simp only at hp e1 e2 e3
      rw [hp, e1, e2, e3]
  refine ⟨⟨?_, ?_, ?_, ?_⟩, hpm, ?_⟩
  · rw [hs.evals]; exact tie_stored hs.check
  · rw [hs.evalsElite, hs.elite]; exact ⟨h3, h4⟩
  · refine ⟨s'.gen.rows, ?_⟩
    rw [hs.elite, h2]
    rcases h1 with h1 | h1 <;> rw [h1]
    · exact .inl rfl
    · exact .inr rfl
  · rw [hpm]; exact ⟨rfl, rfl, rfl⟩
  · have := hs.sample
    rw [hm.sample, hpm] at this
    exact this

theorem tie_start (h : UMDAd id (tieCfg m) = .ok (e, b)) {s0 : St (List ℝ) ℝ (UniBin ℝ)}
    (h0 : start backEnv e (fun _ _ => 0) b ρ = .ok s0) : TieInv s0 := by
  obtain ⟨hm, _, hb⟩ := UMDAd_ok h
  obtain ⟨ev, r0, c0, best, i, hs⟩ := start_ok h0
  have hgen : s0.gen = ⟨.int, 1, [[0], [1]]⟩ := by
    have := hs.init
    rw [(hm.initSome _ rfl).2] at this
    exact (Except.ok.inj this).symm
  obtain ⟨k1, k2⟩ := tie_stored hs.check
  refine ⟨?_, ?_, ?_, ?_⟩
  · rw [hs.evals]; exact ⟨k1, k2⟩
  · rw [hs.evalsElite, hs.elite]
    refine ⟨rfl, ?_⟩
    intro c hc
    rw [List.mem_singleton.1 hc]
    exact k2 _ (List.mem_of_getElem? hs.cost0)
  · refine ⟨[[0]], .inr ?_⟩
    rw [hs.elite, hgen]
    have := hs.row0
    rw [hgen] at this
    simp at this
    rw [← this]
    rfl
  · rw [hs.pm, hb]; exact ⟨rfl, rfl, rfl⟩

/-- **C79** with a constant cost function and an `argsort` that puts the elite before the generation, the two
different individuals of the elite are selected for ever: whatever `T` and `max_iter > T`, the generations from
number `T` on are not all equal with probability at least 1/4. -/
theorem C79_ties {D : Measure (Draws ℝ)} [IsProbabilityMeasure D] (hD : IndepDraws D (fun _ => unif01) (fun ω => ω))
    {T : ℕ} (hT : 1 ≤ T) (hm : T < m) :
    ∃ e b, UMDAd id (tieCfg m) = .ok (e, b) ∧
      1 / 4 ≤ eachGen D {ω | ∃ res s,
        minimize backEnv e (fun _ _ => 0) 0 b { ρ with sample := ω } = .ok (res, s) ∧ ¬ ∃ x, SettledFrom T x s} := by
  have hrunAll : ∀ ω : ℕ → Draws ℝ, ∃ e b, UMDAd id (tieCfg m) = .ok (e, b) ∧
      ∃ res s, minimize backEnv e (fun _ _ => 0) 0 b { ρ with sample := ω } = .ok (res, s) := by
    intro ω
    refine C53_UMDAd_never_raises backEnv_valid ⟨?_, ?_⟩ ?_ ?_ ?_ ?_ ?_ ?_ ?_
    · intro v hv; simp [tieCfg] at hv
    · intro d hd
      simp only [tieCfg, Option.some.injEq] at hd
      subst hd
      intro r hr
      simp at hr
      rcases hr with rfl | rfl <;> rfl
    · simp [tieCfg]
    · norm_num [tieCfg]
    · intro d hd
      simp only [tieCfg, Option.some.injEq] at hd
      subst hd
      simp [tieCfg]
    · norm_num [tieCfg]
    · intro hp; simp [tieCfg] at hp
    · norm_num [tieCfg, selLen, pyInt, Num.truncZ]
    · intro k r; simp [IsNum, PyCost.eq]
  obtain ⟨e, b, heb, _⟩ := hrunAll (fun _ _ _ => 0)
  refine ⟨e, b, heb, ?_⟩
  have hprob := C74_binary_generation hD (b := (⟨1, 0, 1, [1 / 2]⟩ : UniBin ℝ)) rfl
    (by intro x hx; simp at hx; rw [hx]; norm_num) (m := 2) (fun i _ => decide (i = 0))
  have hval : (∏ i : Fin 2, ∏ j : Fin 1, ENNReal.ofReal (if decide (i = 0) then [(1 : ℝ) / 2].getD j 0 else
      1 - [(1 : ℝ) / 2].getD j 0)) = 1 / 4 := by
    simp only [Fin.prod_univ_two, Fin.prod_univ_one]
    norm_num
    rw [← ENNReal.ofReal_mul (by norm_num)]
    norm_num
    rw [ENNReal.ofReal_div_of_pos (by norm_num)]
    simp
  have hev := (measurePreserving_eval_infinitePi (fun _ : ℕ => D) T)
  have hms : MeasurableSet {ω : Draws ℝ | ∃ g, (⟨1, 0, 1, [1 / 2]⟩ : UniBin ℝ).sample (2 : ℕ) ω = .ok g ∧
      g.rows = List.ofFn (fun i : Fin 2 => List.ofFn (fun _ : Fin 1 =>
        if decide (i = 0) then (1 : ℝ) else 0))} :=
    (uniBin_discrete ⟨1, 0, 1, [1 / 2]⟩ (2 : ℕ)).measurable {o | ∃ g, o = .ok g ∧
      g.rows = List.ofFn (fun i : Fin 2 => List.ofFn (fun _ : Fin 1 => if decide (i = 0) then (1 : ℝ) else 0))}
  rw [← hval, ← hprob, ← hev.measure_preimage hms.nullMeasurableSet]
  refine measure_mono ?_
  rintro ω ⟨g, hg, hrows⟩
  obtain ⟨e', b', heb', res, s, hrun⟩ := hrunAll ω
  rw [heb] at heb'
  obtain ⟨rfl, rfl⟩ := Prod.mk.inj (Except.ok.inj heb')
  refine ⟨res, s, hrun, ?_⟩
  obtain ⟨hmk, _, _⟩ := UMDAd_ok heb
  have hlen := history_max (m := m) (by rw [hmk.deadIter]; rfl) (by rw [hmk.maxIter]; rfl) hrun
  obtain ⟨s1, s2, brk, nz, hvis, hnz, hst, hlog⟩ := minimize_pass backEnv_valid hrun hT (by omega)
  have hinv : TieInv s1 := visited_inv TieInv (fun s0 h0 => tie_start heb h0)
    (fun nz t s s' b hi hn hs => (tie_step heb hn hi hs).1) hvis
  obtain ⟨_, _, hsm⟩ := tie_step heb hnz hinv hst
  have : s2.gen = g := Except.ok.inj (hsm.symm.trans hg)
  rw [this, hrows] at hlog
  rintro ⟨x, hx⟩
  cases hb : s.log[T]? with
  | none => rw [hb] at hlog; simp at hlog
  | some batch =>
    rw [hb] at hlog
    simp only [Option.map_some, Option.some.injEq] at hlog
    have hall : ∀ r ∈ batch.map Prod.fst, r = x := by
      intro r hr
      obtain ⟨p, hp, rfl⟩ := List.mem_map.1 hr
      exact hx T batch le_rfl hb p hp
    rw [hlog] at hall
    have h1 := hall [1] (by simp)
    have h0 := hall [0] (by simp)
    rw [← h0] at h1
    simp at h1

end ties

section examples

/-- The number of zeros, which has ties, with a stable `argsort`: the runs of `UMDAd` without bounds become
uniform. -/
example : ∃ T : ℕ, ∀ m : ℕ, T < m → ∃ e b, UMDAd id (stuckCfg m) = .ok (e, b) ∧
    eachGen (Measure.infinitePi fun _ : ℕ => Measure.infinitePi fun _ : ℕ => unif01)
      {ω | ¬ ∃ res s, minimize realEnv e (fun _ r => 2 - r.sum) 0 b
        ⟨fun _ _ => 1 / 2, fun _ _ => 0, fun _ _ _ => 0, ω⟩ = .ok (res, s) ∧
        ∃ x, SettledFrom T x s ∧ (1 ≤ selLen id 4 (1 / 4 : ℝ) → BestOfRun (fun r => 2 - r.sum) x s)} ≤ 1 / 100 := by
  have hsel : selLen (id : ℝ → ℝ) (stuckCfg 0).base.sizeGen (stuckCfg 0).base.alpha = 2 := by
    norm_num [stuckCfg, realCfg, selLen, pyInt, Num.truncZ]
  exact C79_UMDAd (fl := id) (cfg := stuckCfg 0) (env := realEnv) (ftol := 0) (g := fun r => 2 - r.sum)
    (ρ := ⟨fun _ _ => 1 / 2, fun _ _ => 0, fun _ _ _ => 0, fun _ _ _ => 0⟩) realEnv_valid
    ⟨fun v hv => by simp [stuckCfg, realCfg] at hv, fun d hd => by simp [stuckCfg, realCfg] at hd⟩ rfl rfl rfl rfl
    rfl (by simp [stuckCfg, realCfg]) (by rw [hsel]; norm_num) (by rw [hsel]; norm_num [stuckCfg, realCfg])
    (q := 1 / 2) (by rw [hsel]; exact_mod_cast apart_id (k := 2) (by norm_num)) (.inr stableArgsort_stable)
    (indepDraws_exist (fun _ => unif01)) (by simp)

/-- The value of a binary string as a number has no ties, so any `argsort` will do: at least `1 - 255/256` of
the runs are uniform after one generation. -/
example (m : ℕ) {e : Eda (List ℝ) (UniBin ℝ) (Draws ℝ)} {b : UniBin ℝ} (h : UMDAd id (stuckCfg m) = .ok (e, b)) :
    eachGen (Measure.infinitePi fun _ : ℕ => Measure.infinitePi fun _ : ℕ => unif01)
      {ω | ∃ res s, minimize backEnv e (fun _ r => 2 * r.getD 0 0 + r.getD 1 0) 0 b
        ⟨fun _ _ => 1 / 2, fun _ _ => 0, fun _ _ _ => 0, ω⟩ = .ok (res, s) ∧ 1 < res.history.length ∧
        ¬ ∃ x, SettledFrom 1 x s ∧ (1 ≤ selLen id 4 (1 / 4 : ℝ) →
          BestOfRun (fun r => 2 * r.getD 0 0 + r.getD 1 0) x s)} ≤
      (1 - ENNReal.ofReal (1 / 2) ^ (2 * 4)) ^ 1 := by
  have hsel : selLen (id : ℝ → ℝ) (stuckCfg m).base.sizeGen (stuckCfg m).base.alpha = 2 := by
    norm_num [stuckCfg, realCfg, selLen, pyInt, Num.truncZ]
  exact C79_UMDAd_rate (fl := id) (cfg := stuckCfg m) (env := backEnv) (ftol := 0)
    (g := fun r => 2 * r.getD 0 0 + r.getD 1 0)
    (ρ := ⟨fun _ _ => 1 / 2, fun _ _ => 0, fun _ _ _ => 0, fun _ _ _ => 0⟩) backEnv_valid h
    ⟨fun v hv => by simp [stuckCfg, realCfg] at hv, fun d hd => by simp [stuckCfg, realCfg] at hd⟩ rfl rfl
    (fun d hd => by simp [stuckCfg, realCfg] at hd) rfl
    rfl (by rw [hsel]; norm_num) (by rw [hsel]; norm_num [stuckCfg, realCfg])
    (q := 1 / 2) (by rw [hsel]; exact_mod_cast apart_id (k := 2) (by norm_num)) (.inl (by
      intro r hr r' hr' he
      obtain ⟨hl, hr⟩ := hr
      obtain ⟨hl', hr'⟩ := hr'
      match r, hl, r', hl' with
      | [a, b], _, [c, d], _ =>
        simp at hr hr' he
        rcases hr with ⟨rfl | rfl, rfl | rfl⟩ <;> rcases hr' with ⟨rfl | rfl, rfl | rfl⟩ <;>
          first | rfl | (norm_num at he)))
    (indepDraws_exist (fun _ => unif01)) 1

/-- Categories: one variable with two categories and a cost function without ties. -/
example : ∃ T : ℕ, ∀ m : ℕ, T < m → ∃ e b, UMDAcat id (stuckCat m) = .ok (e, b) ∧
    eachGen (Measure.infinitePi fun _ : ℕ => Measure.infinitePi fun _ : ℕ => unif01)
      {ω | ¬ ∃ res s, minimize backEnv e (fun _ r => if r = [.str 1] then 0 else 1) 0 b
        ⟨fun _ _ => 1 / 2, fun _ _ => 0, fun _ _ _ => 0, ω⟩ = .ok (res, s) ∧
        ∃ x, SettledFrom T x s ∧ (1 ≤ selLen id 3 (1 / 4 : ℝ) →
          BestOfRun (fun r => if r = [.str 1] then 0 else 1) x s)} ≤ 1 / 100 := by
  refine C79_UMDAcat (fl := id) (cfg := stuckCat 0) (env := backEnv) (ftol := 0)
    (g := fun r => if r = [.str 1] then (0 : ℝ) else 1)
    (ρ := ⟨fun _ _ => 1 / 2, fun _ _ => 0, fun _ _ _ => 0, fun _ _ _ => 0⟩) backEnv_valid (k := 1)
    { pos := le_refl _, dead := by simp [stuckCat], vars := by simp [stuckCat], size := by norm_num [stuckCat]
      cpu := by simp [stuckCat], trunc := by norm_num [stuckCat, selLen, pyInt, Num.truncZ]
      space := by
        intro j hj
        have hj : j < 1 := hj
        obtain rfl : j = 0 := by omega
        exact ⟨_, _, rfl, rfl, rfl, by simp, by norm_num, by simp [Cat.isStr]⟩
      data := by intro d hd; simp [stuckCat] at hd }
    (by intro i j; norm_num) (by norm_num [stuckCat, selLen, pyInt, Num.truncZ]) (.inl ?_)
    (indepDraws_exist (fun _ => unif01)) (by simp)
  have hlegal : ∀ r, (stuckCat 0).Legal r → r = [.str 0] ∨ r = [.str 1] := by
    rintro r ⟨hl, hr⟩
    have hl : r.length = 1 := hl
    match r, hl with
    | [a], _ =>
      have := hr 0 a rfl
      simp [CatCfg.Declared, stuckCat] at this
      rcases this with rfl | rfl <;> simp
  intro r hr r' hr' he
  rcases hlegal r hr with rfl | rfl <;> rcases hlegal r' hr' with rfl | rfl <;> simp at he ⊢

end examples

end Verif
