/-
C86: whether the arcs of `print_structure` describe the dependences in the samples.
-/
import Verif.Model.Structure
import Verif.Lemmas.Structure
import Verif.Props.Kde
import Verif.Props.Net

set_option linter.unusedSectionVars false

namespace Verif

open MeasureTheory ProbabilityTheory Spec WithLp

section
variable {Ω : Type} [MeasurableSpace Ω] {P : Measure Ω} {U : Ω → Draws ℝ} {size : ℤ}

/-! ### Univariate models -/

/-- **C86** (partial: see `C86_refuted` for `MultiGauss` and `UniKDE`) `UniBin`, used by `UMDAd`: no arcs, and
all variables are independent. -/
theorem C86_uni_bin_partial (hU : IndepDraws P (fun _ => unif01) U) {b : UniBin ℝ} (hp : b.p.length = b.n)
    (h01 : ∀ x ∈ b.p, 0 ≤ x ∧ x ≤ 1) (hs : 0 ≤ size) :
    b.printStructure = [] ∧ StructureHolds P size.toNat b.n (fun ω => b.sample size (U ω)) id b.printStructure :=
  ⟨rfl, structure_of_cells (C74_uni_bin hU hp h01 hs)⟩

/-- The hypotheses are met. -/
example : StructureHolds (Measure.infinitePi (fun _ : ℕ => Measure.infinitePi (fun _ : ℕ => unif01))) 3 2
    (fun ω : Draws ℝ => UniBin.sample (K := ℝ) ⟨2, 0, 1, [1 / 2, 1 / 4]⟩ 3 ω) id
    (UniBin.printStructure (K := ℝ) ⟨2, 0, 1, [1 / 2, 1 / 4]⟩) :=
  (C86_uni_bin_partial (size := 3) (indepDraws_exist (fun _ => unif01)) (b := ⟨2, 0, 1, [1 / 2, 1 / 4]⟩) rfl
    (by intro x hx; simp at hx; rcases hx with rfl | rfl <;> norm_num) (by norm_num)).2

/-- **C86** (partial) `UniGauss` and `AdaptUniGauss`, used by `UMDAc` and `PBIL`. -/
theorem C86_uni_gauss_partial (hU : IndepDraws P (fun _ => gaussianReal 0 1) U) {b : UniGauss ℝ}
    (hm : b.mean.length = b.n) (hsd : b.std.length = b.n) (hpos : ∀ s ∈ b.std, 0 ≤ s) (hs : 0 ≤ size) :
    b.printStructure = [] ∧ StructureHolds P size.toNat b.n (fun ω => b.sample size (U ω)) id b.printStructure :=
  ⟨rfl, structure_of_cells (C74_uni_gauss hU hm hsd hpos hs)⟩

/-! ### Multivariate models without a network -/

/-- **C86** `MultiGauss`, used by `EMNA`: the empty list of arcs is right exactly when every entry of `pm_cov`
outside of the diagonal is zero. -/
theorem C86_multi_gauss (hU : IndepDraws P (fun _ => gaussianReal 0 1) U) {b : MultiGauss ℝ}
    (hm : b.means.length = b.n) (hr : b.cov.length = b.n) (hsq : Rect b.n b.cov)
    {fac : List (List ℝ) → List (List ℝ)} (hsvd : IsSvdRoot b.n (entry b.cov) (entry (fac b.cov)))
    (hsym : ∀ i < b.n, ∀ j < b.n, entry b.cov i j = entry b.cov j i) (hpsd : PSD b.n (entry b.cov))
    (hs : 0 < size) :
    StructureHolds P size.toNat b.n (fun ω => b.sample fac size (U ω)) id b.printStructure ↔
      ∀ i < b.n, ∀ j < b.n, i ≠ j → entry b.cov i j = 0 := by
  rw [structure_iff (C74_multi_gauss hU hm hr hsq hsvd hsym hpsd hs.le) (by omega)]
  have hS := (psd_iff_posSemidef hsym).1 hpsd
  simp only [MultiGauss.printStructure, linked_nil, gauss_indep_iff hS, id]
  constructor
  · intro h i hi j hj hij
    exact h ⟨i, hi⟩ ⟨j, hj⟩ hij
  · intro h j k hjk
    exact h j j.2 k k.2 hjk

/-- **C86** `MultiGauss` after learning with a positive `lower_factor`: the empty list is wrong, whatever the
data, because every covariance is at least `lower_factor`. -/
theorem C86_multi_gauss_wrong (hU : IndepDraws P (fun _ => gaussianReal 0 1) U) {b b' : MultiGauss ℝ}
    {g : Gen (List ℝ)} (hc : b.n = g.cols) (h2 : 2 ≤ b.n) (hr : 2 ≤ g.rows.length) (hlu : b.lb ≤ b.ub)
    (hlb : 0 < b.lb) (h : b.learn Real.sqrt g = .ok b') (hpsd : PSD b.n (entry b'.cov))
    {fac : List (List ℝ) → List (List ℝ)} (hsvd : IsSvdRoot b.n (entry b'.cov) (entry (fac b'.cov)))
    (hs : 0 < size) :
    ¬ StructureHolds P size.toNat b.n (fun ω => b'.sample fac size (U ω)) id b'.printStructure := by
  obtain ⟨b1, hb1, hm, hl, hrect, _, hcov⟩ := C26_learn_partial (sq := Real.sqrt)
    (fun x hx => ⟨Real.sqrt_nonneg x, Real.mul_self_sqrt hx⟩) hc h2 hr hlu
  rw [h] at hb1
  obtain rfl := Except.ok.inj hb1
  have hn : b'.n = b.n := by
    have := MultiGauss.learn_eq (sq := Real.sqrt) hc h2 hr
    rw [h] at this
    rw [Except.ok.inj this]
  rw [← hn] at hm hl hrect hpsd hsvd hcov ⊢
  rw [C86_multi_gauss hU hm hl hrect hsvd (fun i hi j hj => (hcov i hi j hj).1) hpsd hs]
  intro hz
  have h01 := (hcov 0 (by omega) 1 (by omega)).2.1 (by omega)
  have := hz 0 (by omega) 1 (by omega) (by omega)
  linarith [h01.2.1]

/-- Four individuals at the corners of a square; their covariance is zero. -/
def Ex.square : Gen (List ℝ) := { dt := .float, cols := 2, rows := [[1, 1], [1, -1], [-1, 1], [-1, -1]] }

/-- **C86** is false: `MultiGauss` learned from uncorrelated data with `lower_bound = 1/2` prints no arcs but
samples dependent variables. -/
theorem C86_refuted (hU : IndepDraws P (fun _ => gaussianReal 0 1) U) :
    ∃ b' fac, (MultiGauss.new 2 (1 / 2 : ℝ) 100).learn Real.sqrt Ex.square = .ok b' ∧
      Spec.covariance (col Ex.square.rows 0) (col Ex.square.rows 1) = 0 ∧ b'.printStructure = [] ∧
      ¬ StructureHolds P 1 2 (fun ω => b'.sample fac 1 (U ω)) id b'.printStructure := by
  obtain ⟨b', hb', hm, hl, hrect, _, hcov⟩ := C26_learn_partial (sq := Real.sqrt)
    (fun x hx => ⟨Real.sqrt_nonneg x, Real.mul_self_sqrt hx⟩) (b := MultiGauss.new 2 (1 / 2 : ℝ) 100)
    (g := Ex.square) rfl le_rfl (show 2 ≤ 4 by omega) (show (1 / 2 : ℝ) ≤ 100 by norm_num)
  have hz : Spec.covariance (col Ex.square.rows 0) (col Ex.square.rows 1) = 0 := by
    simp [Spec.covariance, col, mean, Ex.square]
  have hv : ∀ j < 2, Spec.variance (col Ex.square.rows j) = 1 := by
    intro j hj
    interval_cases j <;> simp [Spec.variance, col, mean, Ex.square] <;> norm_num
  have hd : ∀ i < 2, entry b'.cov i i = 1 := by
    intro i hi
    have := (hcov i hi i hi).2.2
    rw [hv i hi] at this
    nlinarith [this.1, this.2]
  have ho : entry b'.cov 0 1 = 1 / 2 := by
    have := ((hcov 0 (show 0 < 2 by omega) 1 (show 1 < 2 by omega)).2.1 (by omega)).1
    rw [this, hz]
    show max (1 / 2 : ℝ) (min 100 0) = 1 / 2
    norm_num
  have ho' : entry b'.cov 1 0 = 1 / 2 := by
    rw [← ho]
    exact (hcov 1 (show 1 < 2 by omega) 0 (show 0 < 2 by omega)).1
  have hpsd : PSD 2 (entry b'.cov) := by
    intro x
    simp only [Finset.sum_range_succ, Finset.sum_range_zero, zero_add, hd 0 (by omega), hd 1 (by omega), ho, ho']
    nlinarith [sq_nonneg (x 0 + x 1), sq_nonneg (x 0), sq_nonneg (x 1)]
  obtain ⟨fac, hfac⟩ := svdRoots_exist 2
  have hmat := hfac b'.cov (fun i hi j hj => (hcov i hi j hj).1) hpsd
  refine ⟨b', fac, hb', hz, rfl, ?_⟩
  exact C86_multi_gauss_wrong (b := MultiGauss.new 2 (1 / 2 : ℝ) 100) (g := Ex.square) (size := 1) hU rfl le_rfl
    (show 2 ≤ 4 by omega) (show (1 / 2 : ℝ) ≤ 100 by norm_num) (show (0 : ℝ) < 1 / 2 by norm_num) hb' hpsd
    hmat (by norm_num)

/-- The hypothesis is met. -/
example : ∃ b' fac, (MultiGauss.new 2 (1 / 2 : ℝ) 100).learn Real.sqrt Ex.square = .ok b' ∧
    ¬ StructureHolds (Measure.infinitePi (fun _ : ℕ => Measure.infinitePi (fun _ : ℕ => gaussianReal 0 1))) 1 2
      (fun ω : Draws ℝ => b'.sample fac 1 ω) id b'.printStructure :=
  let ⟨b', fac, h, _, _, hn⟩ := C86_refuted (indepDraws_exist (fun _ => gaussianReal 0 1))
  ⟨b', fac, h, hn⟩

/-- **C86** `UniKDE`, used by `UnivariateKEDA`: the empty list is only right if the selected individuals have no
sample covariances. -/
theorem C86_uni_kde {isPD : List (List ℝ) → Bool} {h2 : ℕ → ℕ → ℝ} {fac : List (List ℝ) → List (List ℝ)}
    {b b' : UniKDE ℝ} {g : Gen (List ℝ)}
    (hU : IndepDraws P (fun j => if j < g.cols then gaussianReal 0 1 else unif01) U)
    (h : b.learn isPD h2 g = .ok b') (hh : 0 ≤ h2 g.rows.length g.cols)
    (hsvd : ∀ ker, b'.kernel = some ker → IsSvdRoot g.cols (entry ker.cov) (entry (fac ker.cov)))
    (hs : 0 < size)
    (hstr : StructureHolds P size.toNat g.cols (fun ω => b'.sample fac size (U ω)) id b'.printStructure) :
    ∀ i < g.cols, ∀ j < g.cols, i ≠ j → Spec.covariance (col g.rows i) (col g.rows j) = 0 := by
  intro i hi j hj hij
  obtain ⟨hr, _, _, _⟩ := UniKDE.learn_ok h
  have hlaw := C74_uni_kde hU h hh hsvd hs.le
  generalize hd : g.cols = d at *
  generalize hN : g.rows.length = N at *
  set S : Matrix (Fin d) (Fin d) ℝ := toMat d (fun i j => Spec.covariance (col g.rows i) (col g.rows j) * h2 N d)
    with hSdef
  have hS : S.PosSemidef := by
    rw [hSdef, ← psd_iff_posSemidef]
    · intro x
      have h0 := mul_nonneg (cov_psd (rows := g.rows) (by omega) d x) hh
      rw [Finset.sum_mul] at h0
      refine h0.trans_eq ?_
      apply Finset.sum_congr rfl; intro i _
      rw [Finset.sum_mul]
      apply Finset.sum_congr rfl; intro j _
      rw [covEntry_eq]; ring
    · intro i _ j _
      rw [covariance_comm]
  set law : ℕ → Measure (EuclideanSpace ℝ (Fin d)) := fun k => multivariateGaussian
    (toLp 2 (fun j : Fin d => (g.rows.getD k []).getD j 0)) S with hlawdef
  have hNpos : (0 : ℝ) < N := by exact_mod_cast (by omega : 0 < N)
  have hprob : IsProbabilityMeasure (mixture N law) := by
    obtain ⟨X, _, _, hl⟩ := hlaw
    constructor
    unfold mixture
    rw [Measure.smul_apply, Measure.finsetSum_apply]
    simp only [hlawdef, measure_univ, Finset.sum_const, Finset.card_range, nsmul_eq_mul, mul_one, smul_eq_mul]
    exact ENNReal.inv_mul_cancel (by simp; omega) (by simp)
  rw [structure_iff hlaw (by omega)] at hstr
  have hind := hstr ⟨i, hi⟩ ⟨j, hj⟩ (by
    simp only [UniKDE.printStructure, linked_nil, id]; exact hij)
  have hmemLp : ∀ j : Fin d, MemLp (fun x : EuclideanSpace ℝ (Fin d) => x j) 2 (mixture N law) := fun j =>
    mixture_memLp (by omega) (by fun_prop) (fun k => gauss_memLp j)
  have hzero := hind.covariance_eq_zero (hmemLp _) (hmemLp _)
  have hmean : ∀ j : Fin d, ∫ x, x j ∂(mixture N law) = mean (col g.rows j) := by
    intro j
    rw [mixture_integral (fun k => (gauss_memLp j).integrable (by norm_num))]
    simp only [gauss_mean]
    rw [mix_sum g.rows hN.symm (fun r => r.getD j 0)]
    simp [mean, col, hN]
  rw [ProbabilityTheory.covariance, hmean, hmean, mixture_integral (fun k => (gauss_moment hS _ _ _ _).1)] at hzero
  simp only [fun k => (gauss_moment (μ := toLp 2 (fun j : Fin d => (g.rows.getD k []).getD j 0)) hS
    ⟨i, hi⟩ ⟨j, hj⟩ (mean (col g.rows i)) (mean (col g.rows j))).2] at hzero
  have hN1 : (N : ℝ) - 1 ≠ 0 := by
    have : (2 : ℝ) ≤ N := by exact_mod_cast hr
    linarith
  have hcv : (g.rows.map (fun r => (r.getD i 0 - mean (col g.rows i)) *
      (r.getD j 0 - mean (col g.rows j)))).sum =
      Spec.covariance (col g.rows i) (col g.rows j) * (N - 1) := by
    rw [← covEntry_eq]
    unfold covEntry
    rw [foldl_add_map, colMean_eq, colMean_eq, zero_add, hN, div_mul_cancel₀ _ hN1]
  rw [Finset.sum_add_distrib, mix_sum g.rows hN.symm (fun r => (r.getD i 0 - mean (col g.rows i)) *
      (r.getD j 0 - mean (col g.rows j))), hcv] at hzero
  simp only [hSdef, toMat, Finset.sum_const, Finset.card_range, nsmul_eq_mul] at hzero
  rw [div_eq_zero_iff, or_iff_left hNpos.ne'] at hzero
  have hN2 : (0 : ℝ) < N - 1 := by
    have : (2 : ℝ) ≤ N := by exact_mod_cast hr
    linarith
  have : Spec.covariance (col g.rows i) (col g.rows j) * (N * h2 N d + (N - 1)) = 0 := by linarith
  rcases mul_eq_zero.1 this with h | h
  · exact h
  · nlinarith [mul_nonneg hNpos.le hh]

end

/-- **C86** is also false for `UniKDE`: learned from `(0,0), (2,0), (2,2)` it prints no arcs but samples dependent
variables, for every positive bandwidth. -/
theorem C86_refuted_kde {Ω : Type} [MeasurableSpace Ω] {P : Measure Ω} {U : Ω → Draws ℝ}
    (hU : IndepDraws P (fun j => if j < 2 then gaussianReal 0 1 else unif01) U)
    {isPD : List (List ℝ) → Bool} {h2 : ℕ → ℕ → ℝ} (hh : ∀ N d, 0 < h2 N d)
    {fac : List (List ℝ) → List (List ℝ)} {b' : UniKDE ℝ}
    (h : (UniKDE.mk 2 none).learn isPD h2 Ex.tri = .ok b')
    (hsvd : ∀ ker, b'.kernel = some ker → IsSvdRoot 2 (entry ker.cov) (entry (fac ker.cov))) :
    b'.printStructure = [] ∧ ¬ StructureHolds P 1 2 (fun ω => b'.sample fac 1 (U ω)) id b'.printStructure := by
  refine ⟨rfl, fun hstr => ?_⟩
  have := C86_uni_kde (g := Ex.tri) (size := 1) hU h (hh _ _).le hsvd (by norm_num) hstr 0 (show 0 < 2 by omega) 1
    (show 1 < 2 by omega) (by omega)
  rw [← covEntry_eq] at this
  simp [covEntry, colMean, Ex.tri] at this
  norm_num at this

/-- The hypotheses are met. -/
example : ∃ (isPD : List (List ℝ) → Bool) (fac : List (List ℝ) → List (List ℝ)) (b' : UniKDE ℝ),
    (UniKDE.mk 2 none).learn isPD (fun _ _ => 1 / 2) Ex.tri = .ok b' ∧
    ∀ ker, b'.kernel = some ker → IsSvdRoot 2 (entry ker.cov) (entry (fac ker.cov)) := by
  obtain ⟨isPD, hp⟩ := posDefTest_exists (K := ℝ) 2
  obtain ⟨b', _, hb', _⟩ := C58_refuted Ex.corners_expectation hp (h2 := fun _ _ => 1 / 2) (fun _ _ => by norm_num)
  obtain ⟨fac, hfac⟩ := svdRoots_exist 2
  refine ⟨isPD, fac, b', hb', fun ker hker => ?_⟩
  obtain ⟨_, _, _, hk⟩ := UniKDE.learn_ok hb'
  rw [hk] at hker
  obtain rfl := Option.some.inj hker
  have hent : ∀ i < 2, ∀ j < 2, entry ((List.range 2).map (fun i => (List.range 2).map (fun j =>
      covEntry Ex.tri.rows i j * (1 / 2)))) i j = covEntry Ex.tri.rows i j * (1 / 2) := by
    intro i hi j hj
    exact entry_map (F := fun i j => covEntry Ex.tri.rows i j * (1 / 2)) hi hj
  refine hfac _ ?_ ?_
  · intro i hi j hj
    have h1 := hent i hi j hj
    have h2 := hent j hj i hi
    rw [covEntry_eq] at h1 h2
    rw [covariance_comm] at h2
    exact h1.trans h2.symm
  · intro x
    have h0 := cov_psd (rows := Ex.tri.rows) (show 1 ≤ 3 by omega) 2 x
    have e := hent 0 (by omega) 0 (by omega)
    have e1 := hent 0 (by omega) 1 (by omega)
    have e2 := hent 1 (by omega) 0 (by omega)
    have e3 := hent 1 (by omega) 1 (by omega)
    change 0 ≤ ∑ i ∈ Finset.range 2, ∑ j ∈ Finset.range 2, x i * entry ((List.range 2).map (fun i =>
      (List.range 2).map (fun j => covEntry Ex.tri.rows i j * (1 / 2)))) i j * x j
    simp only [Finset.sum_range_succ, Finset.sum_range_zero, zero_add] at h0 ⊢
    rw [e, e1, e2, e3]
    linarith

/-! ### Categorical models -/

/-- **C86** (partial) `UniCategorical`, used by `UMDAcat`, after learning from any data. -/
theorem C86_uni_cat_partial {Ω : Type} [MeasurableSpace Ω] {P : Measure Ω} {U : Ω → Draws ℝ} {size : ℤ}
    {L α : Type} [DecidableEq L] [LinearOrder α]
    (hU : IndepDraws P (fun _ => unif01) U) {c c' : UniCat L α ℝ}
    {data : Gen (List (Cat α))} (hnd : c.vars.Nodup) (hne : c.vars ≠ []) (hr : Rect data.cols data.rows)
    (hd : data.rows ≠ []) (h : c.learn data = .ok c') (hs : 0 ≤ size) (name : ℕ → L) :
    c'.printStructure = [] ∧
      StructureHolds P size.toNat c.vars.length (fun ω => c'.sample size (U ω)) name c'.printStructure :=
  ⟨rfl, structure_of_cells (C74_UMDAcat hU hnd hne hr hd h hs)⟩

/-! ### Networks -/

/-- **C86** (partial) Gaussian networks, used by `EGNA`: if the
parents of every node of the fitted network are among its arcs in pybnesian, then two variables
that follow the network are independent whenever no variable is an ancestor of both along the arcs that
`print_structure` returns. -/
theorem C86_network_partial {S L Ω : Type} [DecidableEq L] {lib : NetLib S L ℝ Ω} {b : BNet S L ℝ}
    (hw : NetWf (b.gnet lib)) {X : L → (ℕ → ℝ) → ℝ} (hX : Follows (b.gnet lib) X)
    (harcs : ∀ l ∈ lib.topSort b.pm, ∀ p ∈ (lib.cpd b.pm l).evidence, (p, l) ∈ lib.arcs b.pm)
    {l m : L} (hl : l ∈ lib.topSort b.pm) (hm : m ∈ lib.topSort b.pm)
    (h : ¬ Linked (b.printStructure lib) l m) : IndepFun (X l) (X m) normalDraws :=
  unlinked_indep hw hX harcs hl hm h

/-- **C86** (partial) a network whose `print_structure` is empty: all variables are independent. -/
theorem C86_network_empty_partial {S L Ω : Type} [DecidableEq L] {lib : NetLib S L ℝ Ω} {b : BNet S L ℝ}
    (hw : NetWf (b.gnet lib)) {X : L → (ℕ → ℝ) → ℝ} (hX : Follows (b.gnet lib) X)
    (harcs : ∀ l ∈ lib.topSort b.pm, ∀ p ∈ (lib.cpd b.pm l).evidence, (p, l) ∈ lib.arcs b.pm)
    (he : b.printStructure lib = []) {l m : L} (hl : l ∈ lib.topSort b.pm) (hm : m ∈ lib.topSort b.pm)
    (h : l ≠ m) : IndepFun (X l) (X m) normalDraws :=
  C86_network_partial hw hX harcs hl hm (by rw [he, linked_nil]; exact h)

/-- A library whose only network is `0 → 2 ← 1`. -/
def Ex.colliderLib : NetLib Unit ℕ ℝ Unit where
  new := fun _ _ => ()
  hc := fun _ _ _ => .ok ()
  fit := fun _ _ => .ok ()
  sample := fun _ _ _ => .error .notModelled
  arcs := fun _ => [(0, 2), (1, 2)]
  topSort := fun _ => [0, 1, 2]
  cpd := fun _ l => if l = 2 then ⟨[0, 1], [0, 1, 1], 1⟩ else ⟨[], [0], 1⟩

/-- A `GBN` with that network. -/
def Ex.collider : BNet Unit ℕ ℝ := ⟨.gaussian, [0, 1, 2], (), none, none, some [0, 1, 2], true⟩

/-- The hypotheses are met; the two parents of a collider are independent (and each is linked to the child). -/
example : IndepFun (fun z : ℕ → ℝ => z 0) (fun z => z 1) normalDraws ∧
    Linked (Ex.collider.printStructure Ex.colliderLib) 0 2 := by
  constructor
  · have hX : Follows (Ex.collider.gnet Ex.colliderLib) (fun l z => if l = 2 then z 0 + z 1 + z 2 else z l) := by
      intro i l hl z
      have hi : i < 3 := (List.getElem?_eq_some_iff.1 hl).1
      interval_cases i <;> obtain rfl := Option.some.inj hl <;>
        simp [BNet.gnet, Ex.collider, Ex.colliderLib, linear]
    have hw : NetWf (Ex.collider.gnet Ex.colliderLib) := by
      refine ⟨by decide, ?_, ?_, ?_, ?_⟩
      · intro l hl
        fin_cases hl <;> rfl
      · intro i l hl
        have hi : i < 3 := (List.getElem?_eq_some_iff.1 hl).1
        interval_cases i <;> obtain rfl := Option.some.inj hl <;>
          simp [BNet.gnet, Ex.collider, Ex.colliderLib]
      · intro l hl
        fin_cases hl <;> simp [BNet.gnet, Ex.collider, Ex.colliderLib]
      · intro l hl
        fin_cases hl <;> simp [BNet.gnet, Ex.collider, Ex.colliderLib]
    refine C86_network_partial (l := 0) (m := 1) hw hX ?_ (by decide) (by decide) ?_
    · intro l hl
      fin_cases hl <;> simp [Ex.collider, Ex.colliderLib]
    · have key : ∀ a b : ℕ, Relation.ReflTransGen (fun x y => (x, y) ∈ [(0, 2), (1, 2)]) a b → b ≠ 2 → a = b := by
        intro a b h hb
        induction h with
        | refl => rfl
        | tail _ h _ => simp at h; omega
      rintro ⟨a, h1, h2⟩
      have := key a 0 h1 (by omega)
      have := key a 1 h2 (by omega)
      omega
  · exact ⟨0, .refl, .single (by simp [BNet.printStructure, Ex.colliderLib])⟩

end Verif
