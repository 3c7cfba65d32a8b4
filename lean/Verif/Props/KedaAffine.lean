/-
C105: `UnivariateKEDA` searches in the same way in all coordinate systems.
-/
import Verif.Lemmas.Affine
import Verif.Lemmas.Rotation
import Verif.Props.KedaReach

set_option linter.unusedSectionVars false

namespace Verif

open PyCost Spec MeasureTheory

/-- `Bᵀ c B`. -/
noncomputable def movedCov (n : ℕ) (B : ℕ → ℕ → ℝ) (c : List (List ℝ)) : List (List ℝ) :=
  (List.range n).map (fun i => (List.range n).map (fun j =>
    ∑ a ∈ Finset.range n, ∑ b ∈ Finset.range n, B a i * entry c a b * B b j))

/-- A symmetric and positive definite matrix. -/
def IsCov (n : ℕ) (c : List (List ℝ)) : Prop :=
  PD n (entry c) ∧ ∀ i < n, ∀ j < n, entry c i j = entry c j i

open Classical in
/-- How the draws have to be turned. -/
noncomputable def kedaTurn (fac : List (List ℝ) → List (List ℝ)) (n : ℕ) (B : ℕ → ℕ → ℝ) (m : UniKDE ℝ) :
    Matrix (Fin n) (Fin n) ℝ :=
  match m.kernel with
  | none => 1
  | some ker =>
    if IsCov n ker.cov then
      toMat n (entry (fac (movedCov n B ker.cov))) * (toMat n B)⁻¹ * (toMat n (entry (fac ker.cov)))⁻¹
    else 1

section turn
variable {fac : List (List ℝ) → List (List ℝ)} {n : ℕ} {B : ℕ → ℕ → ℝ} {v : ℕ → ℝ}

theorem movedCov_mat (c : List (List ℝ)) :
    toMat n (entry (movedCov n B c)) = (toMat n B).transpose * toMat n (entry c) * toMat n B := by
  rw [← toMat_congruence]
  ext i j
  exact entry_map (F := fun i j => ∑ a ∈ Finset.range n, ∑ b ∈ Finset.range n, B a i * entry c a b * B b j) i.2 j.2

theorem movedCov_isCov (hB : IsUnit (toMat n B).det) {c : List (List ℝ)} (h : IsCov n c) :
    IsCov n (movedCov n B c) := by
  refine ⟨(pd_congruence hB (movedCov_mat c)).2 h.1, fun i hi j hj => ?_⟩
  have hs : (toMat n (entry c)).transpose = toMat n (entry c) := by
    ext i j; exact h.2 j j.2 i i.2
  have ht : (toMat n (entry (movedCov n B c))).transpose = toMat n (entry (movedCov n B c)) := by
    rw [movedCov_mat, Matrix.transpose_mul, Matrix.transpose_mul, Matrix.transpose_transpose, hs, Matrix.mul_assoc]
  have := congrFun (congrFun ht ⟨j, hj⟩) ⟨i, hi⟩
  exact this

theorem fac_gram (hfac : Decomposes n fac) {c : List (List ℝ)} (h : IsCov n c) :
    (toMat n (entry (fac c))).transpose * toMat n (entry (fac c)) = toMat n (entry c) := by
  ext i j
  have := (svdRoot_gram_iff h.2 (hfac c h.2)).2 (pd_psd h.1) i i.2 j j.2
  rw [Finset.sum_range] at this
  rw [Matrix.mul_apply]
  exact this

theorem fac_det (hfac : Decomposes n fac) {c : List (List ℝ)} (h : IsCov n c) :
    IsUnit (toMat n (entry (fac c))).det := svdRoot_det (hfac c h.2) h.1

theorem kedaTurn_orthogonal (hB : IsUnit (toMat n B).det) (hfac : Decomposes n fac) (m : UniKDE ℝ) :
    (kedaTurn fac n B m).transpose * kedaTurn fac n B m = 1 := by
  unfold kedaTurn
  split
  · simp
  split
  swap
  · simp
  rename_i ker _ hc
  have hA := fac_det hfac hc
  have hg := fac_gram hfac hc
  have hg' := fac_gram hfac (movedCov_isCov hB hc)
  rw [movedCov_mat] at hg'
  set A := toMat n (entry (fac ker.cov))
  set A' := toMat n (entry (fac (movedCov n B ker.cov)))
  set D := toMat n B
  have hDt : IsUnit D.transpose.det := by rwa [Matrix.det_transpose]
  have hAt : IsUnit A.transpose.det := by rwa [Matrix.det_transpose]
  simp only [Matrix.transpose_mul, Matrix.transpose_nonsing_inv]
  calc A.transpose⁻¹ * (D.transpose⁻¹ * A'.transpose) * (A' * D⁻¹ * A⁻¹)
      = A.transpose⁻¹ * (D.transpose⁻¹ * (A'.transpose * A') * D⁻¹) * A⁻¹ := by simp only [Matrix.mul_assoc]
    _ = A.transpose⁻¹ * ((D.transpose⁻¹ * D.transpose) * (A.transpose * A) * (D * D⁻¹)) * A⁻¹ := by
        rw [hg', hg]; simp only [Matrix.mul_assoc]
    _ = (A.transpose⁻¹ * A.transpose) * (A * A⁻¹) := by
        rw [Matrix.nonsing_inv_mul _ hDt, Matrix.mul_nonsing_inv _ hB, Matrix.one_mul, Matrix.mul_one]
        simp only [Matrix.mul_assoc]
    _ = 1 := by rw [Matrix.nonsing_inv_mul _ hAt, Matrix.mul_nonsing_inv _ hA, Matrix.one_mul]

/-- Models learned from the same individuals in both coordinate systems. -/
def KedaRel (n : ℕ) (B : ℕ → ℕ → ℝ) (v : ℕ → ℝ) (m m' : UniKDE ℝ) : Prop :=
  ∃ ker ker', m.kernel = some ker ∧ m'.kernel = some ker' ∧ ker'.rows = ker.rows.map (affineCoord n B v) ∧
    0 < ker.rows.length ∧ ker.cov.length = n ∧ IsCov n ker.cov ∧ ker'.cov = movedCov n B ker.cov

theorem keda_learn_rel {isPD : List (List ℝ) → Bool} {h2 : ℕ → ℕ → ℝ} (hp : PosDefTest n isPD)
    (hh : ∀ N d, 0 < N → 0 < h2 N d) (hB : IsUnit (toMat n B).det) (m m' : UniKDE ℝ) {g g' : Gen (List ℝ)}
    (hg : GenRel (Moved n (affineCoord n B v)) n n g g') :
    ExRel (KedaRel n B v) (m.learn isPD h2 g) (m'.learn isPD h2 g') := by
  obtain ⟨hr, hrect⟩ := moved_rows hg.rows
  unfold UniKDE.learn
  rw [hr, hg.cols, hg.cols', List.length_map]
  split
  · exact .error _
  split
  · exact .error _
  rename_i h1
  have hne : g.rows ≠ [] := by intro h0; rw [h0] at h1; simp at h1
  dsimp only
  have hsym : ∀ rows : List (List ℝ), ∀ i < n, ∀ j < n, covEntry rows i j = covEntry rows j i := by
    intro rows i _ j _; rw [covEntry_eq, covEntry_eq, covariance_comm]
  have hmat : toMat n (covEntry (g.rows.map (affineCoord n B v))) =
      (toMat n B).transpose * toMat n (covEntry g.rows) * toMat n B := by
    rw [← toMat_congruence]
    ext i j
    exact covEntry_affine hne i.2 j.2
  have hpd : isPD ((List.range n).map (fun i => (List.range n).map
      (covEntry (g.rows.map (affineCoord n B v)) i))) = true ↔
      isPD ((List.range n).map (fun i => (List.range n).map (covEntry g.rows i))) = true := by
    rw [hp _ (hsym _), hp _ (hsym _), pd_congruence hB hmat]
  by_cases hc : isPD ((List.range n).map (fun i => (List.range n).map (covEntry g.rows i))) = true
  swap
  · rw [if_neg hc, if_neg (fun h => hc (hpd.1 h))]
    exact .error _
  rw [if_pos hc, if_pos (hpd.2 hc)]
  have hH := hh g.rows.length n (by omega)
  set H := h2 g.rows.length n
  have hent : ∀ i < n, ∀ j < n, entry (((List.range n).map (fun i => (List.range n).map (covEntry g.rows i))).map
      (List.map fun x => x * H)) i j = covEntry g.rows i j * H := by
    intro i hi j hj
    simp [entry, List.getD_eq_getElem?_getD, hi, hj]
  refine .ok ⟨_, _, rfl, rfl, rfl, show 0 < g.rows.length by omega, by simp, ⟨?_, ?_⟩, ?_⟩
  · intro x hx
    have h0 := mul_pos ((hp _ (hsym g.rows)).1 hc x hx) hH
    refine h0.trans_eq ?_
    rw [Finset.sum_mul]
    refine Finset.sum_congr rfl fun i hi => ?_
    rw [Finset.sum_mul]
    refine Finset.sum_congr rfl fun j hj => ?_
    rw [hent i (Finset.mem_range.1 hi) j (Finset.mem_range.1 hj)]
    ring
  · intro i hi j hj
    rw [hent i hi j hj, hent j hj i hi, hsym _ i hi j hj]
  · unfold movedCov
    conv_lhs => rw [List.map_map]
    refine List.map_congr_left fun i hi => ?_
    change List.map _ (List.map _ _) = _
    conv_lhs => rw [List.map_map]
    refine List.map_congr_left fun j hj => ?_
    have hi := List.mem_range.1 hi
    have hj := List.mem_range.1 hj
    simp only [Function.comp]
    rw [covEntry_affine hne hi hj, Finset.sum_mul]
    refine Finset.sum_congr rfl fun a ha => ?_
    rw [Finset.sum_mul]
    refine Finset.sum_congr rfl fun b hb => ?_
    rw [hent a (Finset.mem_range.1 ha) b (Finset.mem_range.1 hb)]
    ring

theorem keda_sample_rel (hB : IsUnit (toMat n B).det) (hfac : Decomposes n fac) {m m' : UniKDE ℝ}
    (h : KedaRel n B v m m') (size : ℤ) {z : Draws ℝ} (hz : ∀ i, z i n ∈ Set.Ico (0 : ℝ) 1) :
    ExRel (GenRel (Moved n (affineCoord n B v)) n n) (m.sample fac size (rotated n (kedaTurn fac n B m) z))
      (m'.sample fac size z) := by
  obtain ⟨ker, ker', hk, hk', hrows, hN, hlen, hcov, hc'⟩ := h
  have hlen' : ker'.cov.length = n := by rw [hc']; simp [movedCov]
  have hQ : kedaTurn fac n B m = toMat n (entry (fac ker'.cov)) * (toMat n B)⁻¹ * (toMat n (entry (fac ker.cov)))⁻¹ := by
    unfold kedaTurn
    rw [hk]
    dsimp only
    rw [if_pos hcov, hc']
  set Q := kedaTurn fac n B m
  have hA := fac_det hfac hcov
  have hQA : Q * toMat n (entry (fac ker.cov)) * toMat n B = toMat n (entry (fac ker'.cov)) := by
    rw [hQ, Matrix.mul_assoc _ _ (toMat n (entry (fac ker.cov))), Matrix.nonsing_inv_mul _ hA, Matrix.mul_one,
      Matrix.mul_assoc, Matrix.nonsing_inv_mul _ hB, Matrix.mul_one]
  unfold UniKDE.sample
  rw [hk, hk']
  dsimp only
  split
  · exact .error _
  refine .ok ⟨rfl, hlen, hlen', ?_⟩
  refine moved_range _ fun i => ⟨by simp [Kde.row, hlen], ?_⟩
  have hlast : rotated n Q z i ker.cov.length = z i n := by rw [hlen]; simp [rotated]
  rw [hlast, hlen', hrows, List.length_map]
  have hpick : pick ker.rows.length (z i n) < ker.rows.length := by
    have h1 := ((C58_pick hN (hz i).1 _).1 rfl).1
    have hN' : (0 : ℝ) < ker.rows.length := by exact_mod_cast hN
    have h2 := h1.trans_lt (hz i).2
    rw [div_lt_one hN'] at h2
    exact_mod_cast h2
  set k := pick ker.rows.length (z i n)
  unfold Kde.row affineCoord
  rw [hlen, hlen']
  refine List.map_congr_left fun j hj => ?_
  have hj := List.mem_range.1 hj
  have hpt : (ker'.rows.getD k []) = affineCoord n B v (ker.rows.getD k []) := by
    rw [hrows, List.getD_eq_getElem?_getD, List.getD_eq_getElem?_getD, List.getElem?_map,
      List.getElem?_eq_getElem hpick]
    rfl
  rw [hpt, affineCoord_getD _ hj]
  have hs' : ((List.range n).map (fun a => z i a * entry (fac ker'.cov) a j)).sum =
      Matrix.vecMul (fun a : Fin n => z i a) (toMat n (entry (fac ker'.cov))) ⟨j, hj⟩ := by
    have : ((List.range n).map (fun a => z i a * entry (fac ker'.cov) a j)).sum =
      ∑ a ∈ Finset.range n, z i a * entry (fac ker'.cov) a j := rfl
    rw [this, Finset.sum_range]
    rfl
  have hrow : ∀ a : Fin n, ((List.range n).map (fun j => (ker.rows.getD k []).getD j 0 +
      ((List.range n).map (fun i' => rotated n Q z i i' * entry (fac ker.cov) i' j)).sum)).getD a 0 =
      (ker.rows.getD k []).getD a 0 +
        Matrix.vecMul (fun a : Fin n => z i a) (Q * toMat n (entry (fac ker.cov))) a := by
    intro a
    rw [List.getD_eq_getElem?_getD, List.getElem?_map, List.getElem?_range a.2]
    simp only [Option.map_some, Option.getD_some]
    congr 1
    have : ((List.range n).map (fun i' => rotated n Q z i i' * entry (fac ker.cov) i' a)).sum =
      ∑ i' ∈ Finset.range n, rotated n Q z i i' * entry (fac ker.cov) i' a := rfl
    rw [this, Finset.sum_range, ← Matrix.vecMul_vecMul]
    refine Finset.sum_congr rfl fun b _ => ?_
    simp only [rotated, Fin.is_lt, dite_true, Fin.eta]
    rfl
  rw [hs', add_assoc, ← hQA, ← Matrix.vecMul_vecMul]
  congr 1
  rw [Finset.sum_range, Finset.sum_range]
  simp only [hrow, add_mul, Finset.sum_add_distrib]
  rfl

end turn

section run
variable {C : Type} [PyCost C] {env : Env C} {f f' : ℕ → List ℝ → C} {ftol : C}
variable {fl : ℝ → ℝ} {isPD : List (List ℝ) → Bool} {h2 : ℕ → ℕ → ℝ} {fac : List (List ℝ) → List (List ℝ)}
variable {cfg : KedaCfg ℝ} {e e' : Eda (List ℝ) (UniKDE ℝ) (Draws ℝ)} {b b' : UniKDE ℝ}

/-- **C105** `UnivariateKEDA` started from data, without white noise: in new coordinates `v + x B`, with any invertible
matrix `B`, every run is the image of a run in the old coordinates whose normal draws are rotated, in every generation
by an orthogonal matrix that is fixed before the draws of the generation are made. -/
theorem C105_run (hv : env.Valid) (hp : PosDefTest cfg.base.nVars isPD) (hh : ∀ N d, 0 < N → 0 < h2 N d)
    (hfac : Decomposes cfg.base.nVars fac) {B : ℕ → ℕ → ℝ} {v : ℕ → ℝ} (hB : IsUnit (toMat cfg.base.nVars B).det)
    {d : Gen (List ℝ)} (hd : cfg.base.initData = some d) (hrect : ∀ r ∈ d.rows, r.length = cfg.base.nVars)
    (hnoise : cfg.base.wNoise = none)
    (he : UnivariateKEDA fl isPD h2 fac cfg = .ok (e, b))
    (he' : UnivariateKEDA fl isPD h2 fac (kedaMoved B v cfg) = .ok (e', b'))
    (hf : ∀ k r, r.length = cfg.base.nVars → f' k (affineCoord cfg.base.nVars B v r) = f k r) (ρ : Rand (Draws ℝ)) :
    ∃ Φ, RotatesAhead cfg.base.nVars Φ ∧ ∀ ω : ℕ → Draws ℝ,
      (∀ t i, ω t i cfg.base.nVars ∈ Set.Ico (0 : ℝ) 1) →
      Image (affineCoord cfg.base.nVars B v) (minimize env e f ftol b { ρ with sample := Φ ω })
        (minimize env e' f' ftol b' { ρ with sample := ω }) := by
  have hmk := mkEda_ok (UnivariateKEDA_ok he).1
  have hmk' := mkEda_ok (UnivariateKEDA_ok he').1
  set n := cfg.base.nVars with hn
  let e0 : Eda (List ℝ) (UniKDE ℝ) (Draws ℝ) :=
    { e with sample := fun m z => e.sample m (rotated n (kedaTurn fac n B m) z) }
  let L : ℕ → (ℕ → Draws ℝ) → UniKDE ℝ → Prop := fun t ω m => ∃ s noise s1 noisy,
    Visited env e0 f ftol b { ρ with sample := ω } t s ∧ e.mkNoise ρ.noise = .ok noise ∧
      truncation env e s = .ok s1 ∧ noise s1.gen = .ok noisy ∧ e.updatePm s1.pm noisy s1.elite (ρ.learn t) = .ok m
  have hL1 : ∀ t ω m m', L t ω m → L t ω m' → m = m' := by
    rintro t ω m m' ⟨s, noise, s1, noisy, a1, a2, a3, a4, a5⟩ ⟨s', noise', s1', noisy', b1, b2, b3, b4, b5⟩
    obtain rfl := visited_unique a1 b1
    rw [a2] at b2; obtain rfl := Except.ok.inj b2
    rw [a3] at b3; obtain rfl := Except.ok.inj b3
    rw [a4] at b4; obtain rfl := Except.ok.inj b4
    rw [a5] at b5; exact Except.ok.inj b5
  have hL2 : ∀ t ω ω', (∀ u < t, ω u = ω' u) → L t ω = L t ω' := by
    intro t ω ω' h
    funext m
    refine propext ⟨?_, ?_⟩
    · rintro ⟨s, noise, s1, noisy, a1, a2⟩
      exact ⟨s, noise, s1, noisy, visited_agree a1 rfl rfl rfl fun u hu => (h u hu).symm, a2⟩
    · rintro ⟨s, noise, s1, noisy, a1, a2⟩
      exact ⟨s, noise, s1, noisy, visited_agree a1 rfl rfl rfl fun u hu => h u hu, a2⟩
  classical
  let turnOf : (UniKDE ℝ → Prop) → Matrix (Fin n) (Fin n) ℝ := fun P =>
    if h : ∃ m, P m then kedaTurn fac n B h.choose else 1
  refine ⟨fun ω t => rotated n (turnOf (L t ω)) (ω t), ⟨fun t ω => turnOf (L t ω), ?_, ?_, fun _ _ => rfl⟩, ?_⟩
  · intro t ω
    simp only [turnOf]
    split
    · exact kedaTurn_orthogonal hB hfac _
    · simp
  · intro t ω ω' h
    simp only [hL2 t ω ω' h]
  intro ω hω
  have hcongr := minimize_congr_sample (env := env) (e := e) (f := f) (ftol := ftol) (pm := b)
    (ρ := { ρ with sample := ω }) (sp := e0.sample) (ω := fun t => rotated n (turnOf (L t ω)) (ω t)) (by
    intro t s noise s1 noisy m a1 a2 a3 a4 a5
    have hm : L t ω m := ⟨s, noise, s1, noisy, a1, a2, a3, a4, a5⟩
    have hex : ∃ m, L t ω m := ⟨m, hm⟩
    have : turnOf (L t ω) = kedaTurn fac n B m := by
      simp only [turnOf]
      rw [dif_pos hex, hL1 t ω _ _ hex.choose_spec hm]
    dsimp only
    rw [this])
  have hcongr : minimize env e f ftol b { ρ with sample := fun t => rotated n (turnOf (L t ω)) (ω t) } =
      minimize env e0 f ftol b { ρ with sample := ω } := hcongr.symm
  rw [hcongr]
  have hd' : (kedaMoved B v cfg).base.initData = some { d with rows := d.rows.map (affineCoord n B v) } := by
    simp [kedaMoved, hd, hn]
  have hsim : EdaSim (Moved n (affineCoord n B v)) n n (fun _ _ => True) (KedaRel n B v) e0 e'
      { ρ with sample := ω } { ρ with sample := ω } :=
    { sizeGen := by change e'.sizeGen = e.sizeGen; rw [hmk.sizeGen, hmk'.sizeGen]; rfl
      maxIter := by change e'.maxIter = e.maxIter; rw [hmk.maxIter, hmk'.maxIter]; rfl
      deadIter := by change e'.deadIter = e.deadIter; rw [hmk.deadIter, hmk'.deadIter]; rfl
      truncLen := by change e'.truncLen = e.truncLen; rw [hmk.truncLen, hmk'.truncLen]; rfl
      eliteLen := by change e'.eliteLen = e.eliteLen; rw [hmk.eliteLen, hmk'.eliteLen]; rfl
      parallel := by change e'.parallel = e.parallel; rw [hmk.parallel, hmk'.parallel]; rfl
      init := by
        change ExRel _ (e.initGen ρ.init) (e'.initGen ρ.init)
        rw [(hmk.initSome d hd).2, (hmk'.initSome _ hd').2]
        exact .ok ⟨rfl, (hmk.initSome d hd).1, (hmk.initSome d hd).1, moved_rows_mk hrect⟩
      noise := by
        change ExRel _ (e.mkNoise ρ.noise) (e'.mkNoise ρ.noise)
        have h0 : cfg.base.noiseAttr = 0 := by simp [BaseCfg.noiseAttr, hnoise]
        have h0' : (kedaMoved B v cfg).base.noiseAttr = 0 := by simp [kedaMoved, BaseCfg.noiseAttr, hnoise]
        rw [hmk.mkNoise, hmk'.mkNoise, h0, h0']
        simp only [mkWhiteNoise, if_pos]
        refine .ok fun g g' hg => ?_
        unfold addNoise
        rw [hg.dt]
        dsimp only
        split
        · exact .error _
        · exact .ok hg
      learn := by
        intro t m m' g g' el el' _ hg _
        change ExRel _ (e.updatePm m g el (ρ.learn t)) _
        rw [hmk.updatePm, hmk'.updatePm]
        exact keda_learn_rel hp hh hB m m' hg
      sample := by
        intro t m m' hm
        change ExRel _ (e.sample m (rotated n (kedaTurn fac n B m) (ω t))) (e'.sample m' (ω t))
        rw [hmk.sample, hmk'.sample]
        exact keda_sample_rel hB hfac hm _ (hω t)
      weaken := fun _ _ _ => trivial }
  exact image_of_sim (minimize_sim hv hsim (fun k r r' hr => by rw [hr.2]; exact hf k r hr.1) trivial)

/-- **C105** Rotated draws are as likely as the draws themselves. -/
theorem C105_rotation {n : ℕ} {Q : Matrix (Fin n) (Fin n) ℝ} (hQ : Q.transpose * Q = 1) :
    (drawsLaw (kdeLaw n)).map (rotated n Q) = drawsLaw (kdeLaw n) ∧
      ∀ X : Set (Draws ℝ), drawsLaw (kdeLaw n) (rotated n Q ⁻¹' X) = drawsLaw (kdeLaw n) X :=
  ⟨rotated_law hQ, rotated_preimage hQ⟩

/-- **C105** The last generation, given the draws of the earlier ones: in the new coordinates every event about the
individuals and their costs has the same probability as in the old coordinates, after the same earlier generations. -/
theorem C105_law (hv : env.Valid) (hp : PosDefTest cfg.base.nVars isPD) (hh : ∀ N d, 0 < N → 0 < h2 N d)
    (hfac : Decomposes cfg.base.nVars fac) {B : ℕ → ℕ → ℝ} {v : ℕ → ℝ} (hB : IsUnit (toMat cfg.base.nVars B).det)
    {d : Gen (List ℝ)} (hd : cfg.base.initData = some d) (hrect : ∀ r ∈ d.rows, r.length = cfg.base.nVars)
    (hnoise : cfg.base.wNoise = none)
    (he : UnivariateKEDA fl isPD h2 fac cfg = .ok (e, b))
    (he' : UnivariateKEDA fl isPD h2 fac (kedaMoved B v cfg) = .ok (e', b'))
    (hf : ∀ k r, r.length = cfg.base.nVars → f' k (affineCoord cfg.base.nVars B v r) = f k r) (ρ : Rand (Draws ℝ))
    {t : ℕ} (hmax : cfg.base.maxIter = t + 1) {ω : ℕ → Draws ℝ}
    (hω : ∀ t i, ω t i cfg.base.nVars ∈ Set.Ico (0 : ℝ) 1) :
    ∃ ω₀ : ℕ → Draws ℝ, (∀ u, ∃ Q : Matrix (Fin cfg.base.nVars) (Fin cfg.base.nVars) ℝ, Q.transpose * Q = 1 ∧
        ω₀ u = rotated cfg.base.nVars Q (ω u)) ∧
      (∀ z : Draws ℝ, (∀ i, z i cfg.base.nVars ∈ Set.Ico (0 : ℝ) 1) → ∃ z₀,
        Image (affineCoord cfg.base.nVars B v) (minimize env e f ftol b { ρ with sample := Function.update ω₀ t z₀ })
          (minimize env e' f' ftol b' { ρ with sample := Function.update ω t z })) ∧
      ∀ S : Set (List (List (List ℝ × C))),
        drawsLaw (kdeLaw cfg.base.nVars) {z | ∃ res s,
          minimize env e' f' ftol b' { ρ with sample := Function.update ω t z } = .ok (res, s) ∧ s.log ∈ S} =
        drawsLaw (kdeLaw cfg.base.nVars) {z | ∃ res s,
          minimize env e f ftol b { ρ with sample := Function.update ω₀ t z } = .ok (res, s) ∧
            s.log.map (List.map fun x => (affineCoord cfg.base.nVars B v x.1, x.2)) ∈ S} := by
  have hmk := mkEda_ok (UnivariateKEDA_ok he).1
  obtain ⟨Φ, ⟨Q, hQ, hpast, hΦ⟩, himg⟩ := C105_run (f := f) (f' := f') (ftol := ftol) (env := env) hv hp hh hfac hB hd
    hrect hnoise he he' hf ρ
  -- the run in the old coordinates
  have hold : ∀ z, minimize env e f ftol b { ρ with sample := Φ (Function.update ω t z) } =
      minimize env e f ftol b
        { ρ with sample := Function.update (Φ ω) t (rotated cfg.base.nVars (Q t ω) z) } := by
    intro z
    refine minimize_used_draws fun u _ hu => ?_
    rw [hmk.maxIter, hmax] at hu
    have hag : ∀ w < u, Function.update ω t z w = ω w := fun w hw => Function.update_of_ne (by omega) _ _
    rw [hΦ, hpast u _ ω hag]
    rcases eq_or_ne u t with rfl | hne
    · rw [Function.update_self, Function.update_self]
    · rw [Function.update_of_ne hne, Function.update_of_ne hne, hΦ]
  have hnew : ∀ z : Draws ℝ, (∀ i, z i cfg.base.nVars ∈ Set.Ico (0 : ℝ) 1) →
      Image (affineCoord cfg.base.nVars B v) (minimize env e f ftol b
        { ρ with sample := Function.update (Φ ω) t (rotated cfg.base.nVars (Q t ω) z) })
          (minimize env e' f' ftol b' { ρ with sample := Function.update ω t z }) := by
    intro z hz
    rw [← hold z]
    refine himg _ fun u i => ?_
    rcases eq_or_ne u t with rfl | hne
    · rw [Function.update_self]; exact hz i
    · rw [Function.update_of_ne hne]; exact hω u i
  refine ⟨Φ ω, fun u => ⟨Q u ω, hQ u ω, hΦ ω u⟩, fun z hz => ⟨_, hnew z hz⟩, fun S => ?_⟩
  refine Eq.trans (measure_congr ?_) (rotated_preimage (hQ t ω) _)
  filter_upwards [kdeLaw_unit cfg.base.nVars] with z hz
  have h := hnew z hz
  refine propext ?_
  change (∃ res s, minimize env e' f' ftol b' { ρ with sample := Function.update ω t z } = .ok (res, s) ∧ s.log ∈ S) ↔
    (∃ res s, minimize env e f ftol b
      { ρ with sample := Function.update (Φ ω) t (rotated cfg.base.nVars (Q t ω) z) } = .ok (res, s) ∧
        s.log.map (List.map fun x => (affineCoord cfg.base.nVars B v x.1, x.2)) ∈ S)
  rcases hx : minimize env e f ftol b
      { ρ with sample := Function.update (Φ ω) t (rotated cfg.base.nVars (Q t ω) z) } with err | ⟨res, s⟩ <;>
    rcases hy : minimize env e' f' ftol b' { ρ with sample := Function.update ω t z } with err' | ⟨res', s'⟩
  · simp
  · rw [hx, hy] at h; exact h.elim
  · rw [hx, hy] at h; exact h.elim
  · rw [hx, hy] at h
    obtain ⟨_, _, _, _, hlog⟩ := h
    simp only [Except.ok.injEq, Prod.mk.injEq]
    constructor
    · rintro ⟨_, _, ⟨rfl, rfl⟩, hS⟩
      exact ⟨_, _, ⟨rfl, rfl⟩, by rw [← hlog]; exact hS⟩
    · rintro ⟨_, _, ⟨rfl, rfl⟩, hS⟩
      exact ⟨_, _, ⟨rfl, rfl⟩, by rw [hlog]; exact hS⟩

end run

/-- Four points of the plane, all selected. -/
noncomputable def Ex.skew : KedaCfg ℝ :=
  { base := { sizeGen := 4, maxIter := 3, deadIter := 0, nVars := 2, alpha := 1, eliteFactor := 1/4,
              parallel := false, wNoise := none,
              initData := some { dt := .float, cols := 2, rows := [[0, 0], [1, 0], [0, 1], [3, 2]] } }
    lower := .scalar 0, upper := .scalar 5 }

theorem Ex.skew_valid : UniformValid realEnv.cpu id Ex.skew.base Ex.skew.lower Ex.skew.upper 4 where
  dead := by norm_num [Ex.skew]
  size := le_refl _
  pos := by norm_num
  trunc := by norm_num [Ex.skew, selLen, pyInt, Num.truncZ]
  cpu := by intro h; simp [Ex.skew] at h
  noise := .inl rfl
  lower := trivial
  upper := trivial
  data := by
    intro d hd
    simp only [Ex.skew, Option.some.injEq] at hd
    subst hd
    refine ⟨⟨rfl, ?_, by simp, by simp⟩, by simp⟩
    intro r hr
    simp only [List.mem_cons, List.not_mem_nil, or_false] at hr
    rcases hr with rfl | rfl | rfl | rfl <;> rfl

/-- The shear `(x, y) ↦ (x + 7, x + y - 1)`. -/
def Ex.shear (i j : ℕ) : ℝ := if i = 0 ∨ j = 1 then (if i = 1 ∧ j = 0 then 0 else 1) else 0

/-- C105 for the shear: minimising `x² + y²` is the same as minimising `(x - 7)² + (y - x + 8)²`. -/
example (ρ : Rand (Draws ℝ)) : ∃ isPD fac, PosDefTest 2 isPD ∧ Decomposes 2 fac ∧ ∃ e b e' b',
    UnivariateKEDA id isPD (fun N d => (N : ℝ) ^ (-2 / (d + 4) : ℝ)) fac Ex.skew = .ok (e, b) ∧
    UnivariateKEDA id isPD (fun N d => (N : ℝ) ^ (-2 / (d + 4) : ℝ)) fac
      (kedaMoved Ex.shear (fun j => if j = 0 then 7 else -1) Ex.skew) = .ok (e', b') ∧
    ∃ Φ, RotatesAhead 2 Φ ∧ ∀ ω : ℕ → Draws ℝ, (∀ t i, ω t i 2 ∈ Set.Ico (0 : ℝ) 1) →
      Image (affineCoord 2 Ex.shear fun j => if j = 0 then 7 else -1)
        (minimize realEnv e (fun _ r => r.getD 0 0 ^ 2 + r.getD 1 0 ^ 2) (0 : ℝ) b { ρ with sample := Φ ω })
        (minimize realEnv e' (fun _ r => (r.getD 0 0 - 7) ^ 2 + (r.getD 1 0 - r.getD 0 0 + 8) ^ 2) 0 b'
          { ρ with sample := ω }) := by
  obtain ⟨isPD, hp⟩ := posDefTest_exists (K := ℝ) 2
  obtain ⟨fac, hfac⟩ : ∃ fac, Decomposes 2 fac := svdRoots_symmetric 2
  have hh : ∀ N d : ℕ, 0 < N → 0 < (N : ℝ) ^ (-2 / (d + 4) : ℝ) := fun N d h =>
    Real.rpow_pos_of_pos (by exact_mod_cast h) _
  have hsel : 2 ≤ selLen id Ex.skew.base.sizeGen Ex.skew.base.alpha := by
    norm_num [Ex.skew, selLen, pyInt, Num.truncZ]
  have hrect : ∀ r ∈ ([[0, 0], [1, 0], [0, 1], [3, 2]] : List (List ℝ)), r.length = 2 := by
    intro r hr
    simp only [List.mem_cons, List.not_mem_nil, or_false] at hr
    rcases hr with rfl | rfl | rfl | rfl <;> rfl
  obtain ⟨e, b, he, _⟩ := C60_returns_or_singular_partial (fl := id) (isPD := isPD)
    (h2 := fun N d => (N : ℝ) ^ (-2 / (d + 4) : ℝ)) (fac := fac) (f := fun _ _ => (0 : ℝ)) (ftol := (0 : ℝ))
    (ρ := ρ) realEnv_valid Ex.skew_valid (show 1 ≤ 2 by omega) (by omega) hsel (fun _ _ => field_isNum _)
  have hval' : UniformValid realEnv.cpu id (kedaMoved Ex.shear (fun j => if j = 0 then 7 else -1) Ex.skew).base
      Ex.skew.lower Ex.skew.upper 4 :=
    { Ex.skew_valid with
      data := by
        intro d hd
        simp only [kedaMoved, Ex.skew, Option.map_some, Option.some.injEq] at hd
        subst hd
        refine ⟨⟨rfl, ?_, by simp, by simp⟩, by simp⟩
        intro r hr
        obtain ⟨x, _, rfl⟩ := List.mem_map.1 hr
        simp [affineCoord, kedaMoved, Ex.skew] }
  obtain ⟨e', b', he', _⟩ := C60_returns_or_singular_partial (fl := id) (isPD := isPD)
    (cfg := kedaMoved Ex.shear (fun j => if j = 0 then 7 else -1) Ex.skew)
    (h2 := fun N d => (N : ℝ) ^ (-2 / (d + 4) : ℝ)) (fac := fac) (f := fun _ _ => (0 : ℝ)) (ftol := (0 : ℝ))
    (ρ := ρ) realEnv_valid hval' (show 1 ≤ 2 by omega) (by omega) hsel (fun _ _ => field_isNum _)
  refine ⟨isPD, fac, hp, hfac, e, b, e', b', he, he', ?_⟩
  exact C105_run (cfg := Ex.skew) realEnv_valid hp hh hfac (by
    change IsUnit (toMat 2 Ex.shear).det
    rw [Matrix.det_fin_two]
    simp [toMat, Ex.shear]) rfl hrect rfl he he' (by
    intro k r _
    change ((affineCoord 2 _ _ r).getD 0 0 - 7) ^ 2 + ((affineCoord 2 _ _ r).getD 1 0 - (affineCoord 2 _ _ r).getD 0 0 + 8) ^ 2 = _
    rw [affineCoord_getD _ (by omega), affineCoord_getD _ (by omega)]
    simp only [Finset.sum_range_succ, Finset.sum_range_zero, Ex.shear]
    norm_num
    ring) ρ

end Verif
