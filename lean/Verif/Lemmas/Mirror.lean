/-
Reversing axes: the pieces of `UMDAc`, `PBIL` and `EMNA`.
-/
import Verif.Lemmas.Equivariance
import Verif.Spec.Mirror

set_option linter.unusedSectionVars false

namespace Verif

open Spec

variable {K : Type} [Field K] [LinearOrder K] [IsStrictOrderedRing K]
variable {sg : ℕ → K} {n : ℕ}

theorem mirror_length (r : List K) : (mirror sg n r).length = n := by simp [mirror]

theorem mirror_getD (r : List K) {j : ℕ} (hj : j < n) :
    (mirror sg n r).getD j 0 = sg j * r.getD j 0 := by
  simp [mirror, List.getD, hj]

theorem mirror_congr {r : List K} {F : ℕ → K} (h : ∀ j < n, sg j * r.getD j 0 = F j) :
    mirror sg n r = (List.range n).map F := by
  apply List.map_congr_left
  intro j hj
  exact h j (List.mem_range.1 hj)

theorem col_mirror (rows : List (List K)) {j : ℕ} (hj : j < n) :
    col (rows.map (mirror sg n)) j = (col rows j).map (fun x => sg j * x + 0) := by
  simp only [col, List.map_map]
  apply List.map_congr_left
  intro r _
  simp only [Function.comp, mirror_getD r hj, add_zero]

theorem colMean_mirror {rows : List (List K)} (hne : rows ≠ []) {j : ℕ} (hj : j < n) :
    colMean (rows.map (mirror sg n)) j = sg j * colMean rows j := by
  rw [colMean_eq, colMean_eq, col_mirror rows hj, mean_affine (by simpa [col] using hne), add_zero]

theorem IsSigns.sq (h : IsSigns n sg) {j : ℕ} (hj : j < n) : sg j * sg j = 1 := by
  rcases h j hj with h | h <;> rw [h] <;> norm_num

theorem colStd_mirror {sq : K → K} (hs : IsSigns n sg) {rows : List (List K)}
    (hne : rows ≠ []) {j : ℕ} (hj : j < n) :
    colStd sq (rows.map (mirror sg n)) j = colStd sq rows j := by
  rw [colStd_eq, colStd_eq, col_mirror rows hj, variance_affine (by simpa [col] using hne),
    IsSigns.sq hs hj, one_mul]

/-! ### The univariate Gaussian -/

/-- Models before learning. -/
def MirGauss0 (n : ℕ) (m m' : UniGauss K) : Prop := m.n = n ∧ m'.n = n ∧ m'.lb = m.lb

/-- Models after learning. -/
structure MirGauss (sg : ℕ → K) (n : ℕ) (m m' : UniGauss K) : Prop where
  n1 : m.n = n
  n2 : m'.n = n
  lb : m'.lb = m.lb
  len : m.mean.length = n
  lens : m.std.length = n
  mean : m'.mean = mirror sg n m.mean
  std : m'.std = m.std

theorem mir_sample {m m' : UniGauss K} (h : MirGauss sg n m m')
    {ω ω' : Draws K} (hω : MirrorDraws sg n ω ω') (size : ℤ) :
    ExRel (GenRel (Moved n (mirror sg n)) n n) (m.sample size ω) (m'.sample size ω') := by
  unfold UniGauss.sample
  rw [h.n1, h.n2, h.std, h.len, h.lens, h.mean, mirror_length]
  split
  · exact .error _
  split
  · exact .error _
  rw [if_neg (by simp), if_neg (by simp)]
  refine .ok ⟨rfl, rfl, rfl, moved_range _ (fun i => ⟨by simp, ?_⟩)⟩
  refine (mirror_congr ?_).symm
  intro j hj
  have e : (if n = 1 then 0 else j) = j := by split <;> omega
  rw [getD_range_map hj, e, mirror_getD _ hj, hω i j hj]
  ring

theorem mir_learn {sq : K → K} (hs : IsSigns n sg) (hn : 0 < n) {m m' : UniGauss K} (h : MirGauss0 n m m')
    {g g' : Gen (List K)} (hg : GenRel (Moved n (mirror sg n)) n n g g') :
    ExRel (MirGauss sg n) (m.learn sq g) (m'.learn sq g') := by
  obtain ⟨h1, h2, h3⟩ := h
  obtain ⟨hr, hrect⟩ := moved_rows hg.rows
  unfold UniGauss.learn
  rw [h1, h2, hg.cols, hg.cols', if_neg hn.ne', if_neg hn.ne', if_neg (lt_irrefl n), if_neg (lt_irrefl n), hr]
  by_cases hne : g.rows = []
  · rw [if_pos hne, if_pos (by simp [hne])]; exact .error _
  · rw [if_neg hne, if_neg (by simpa using hne)]
    refine .ok ⟨rfl, rfl, h3, by simp, by simp, ?_, ?_⟩
    · refine (mirror_congr ?_).symm
      intro j hj
      rw [getD_range_map hj, colMean_mirror hne hj]
    · apply List.map_congr_left
      intro j hj
      rw [colStd_mirror hs hne (List.mem_range.1 hj), h3]

theorem mir_learnAdapt {sq : K → K} (hs : IsSigns n sg) (hn : 0 < n) {alpha : K} {m m' : UniGauss K}
    (h : MirGauss0 n m m') {g g' : Gen (List K)} (hg : GenRel (Moved n (mirror sg n)) n n g g') :
    ExRel (MirGauss sg n) (m.learnAdapt sq alpha g) (m'.learnAdapt sq alpha g') := by
  obtain ⟨h1, h2, h3⟩ := h
  obtain ⟨hr, hrect⟩ := moved_rows hg.rows
  unfold UniGauss.learnAdapt
  rw [h1, h2, hg.cols, hg.cols', if_neg hn.ne', if_neg hn.ne', if_neg (lt_irrefl n), if_neg (lt_irrefl n), hr]
  rcases hg0 : g.rows with _ | ⟨r0, _ | ⟨r1, rs⟩⟩
  · exact .error _
  · exact .error _
  · obtain ⟨rl, hl⟩ : ∃ rl, (r0 :: r1 :: rs).getLast? = some rl :=
      ⟨_, List.getLast?_eq_some_getLast (by simp)⟩
    have hl' : ((r0 :: r1 :: rs).map (mirror sg n)).getLast? = some (mirror sg n rl) := by
      rw [List.getLast?_map, hl]; rfl
    have hne : (r0 :: r1 :: rs) ≠ [] := by simp
    rw [hl', hl]
    simp only [List.getElem?_cons_zero, List.getElem?_cons_succ, List.map_cons]
    simp only [← List.map_cons]
    refine .ok ⟨rfl, rfl, h3, by simp, by simp, ?_, ?_⟩
    · refine (mirror_congr ?_).symm
      intro j hj
      rw [getD_range_map hj, colMean_mirror hne hj, mirror_getD _ hj, mirror_getD _ hj, mirror_getD _ hj]
      ring
    · apply List.map_congr_left
      intro j hj
      rw [colStd_mirror hs hne (List.mem_range.1 hj), h3]

/-! ### The initial population -/

theorem mir_uniform (hs : IsSigns n sg) {lo up lo' up' : Bound K} (h : MirrorBounds sg n lo up lo' up')
    {ω ω' : Draws K} (hω : MirrorUnif sg n ω ω') (size : ℤ) :
    ExRel (GenRel (Moved n (mirror sg n)) n n)
      (UniformInit.sample id ⟨n, lo, up⟩ size ω) (UniformInit.sample id ⟨n, lo', up'⟩ size ω') := by
  obtain ⟨l, u, h1, h2, h3, h4⟩ := h
  obtain ⟨a1, a2, a3, a4⟩ := h1.facts
  obtain ⟨b1, b2, b3, b4⟩ := h2.facts
  obtain ⟨c1, c2, c3, c4⟩ := h3.facts
  obtain ⟨d1, d2, d3, d4⟩ := h4.facts
  unfold UniformInit.sample
  simp only [a1, b1, c1, d1, a3, b3, c3, d3, Bool.false_eq_true, or_self, if_false, and_self,
    not_true_eq_false]
  split
  · exact .error _
  · refine .ok ⟨rfl, rfl, rfl, moved_range _ (fun i => ⟨by simp, ?_⟩)⟩
    refine (mirror_congr ?_).symm
    intro j hj
    rw [getD_range_map hj, a4 _ hj, b4 _ hj, c4 _ hj, d4 _ hj, hω i j hj]
    rcases hs j hj with e | e
    · simp [e]
    · have : (-1 : K) ≠ 1 := by norm_num
      simp only [e, if_neg this, id]
      ring

/-! ### The white noise -/

theorem mir_noise (w : K) (t : ℤ) {ω ω' : Draws K} (hω : MirrorDraws sg n ω ω') :
    ExRel (fun N N' => ∀ g g', GenRel (Moved n (mirror sg n)) n n g g' →
      ExRel (GenRel (Moved n (mirror sg n)) n n) (addNoise N g) (addNoise N' g'))
      (mkWhiteNoise w t n ω) (mkWhiteNoise w t n ω') := by
  unfold mkWhiteNoise
  split
  · refine .ok (fun g g' hg => ?_)
    unfold addNoise
    simp only [hg.dt]
    cases g.dt with
    | int => exact .ok hg
    | float => exact .ok hg
    | object => exact .error _
  split
  · refine .ok (fun g g' hg => ?_)
    unfold addNoise
    simp only [hg.dt]
    cases g.dt <;> exact .error _
  split
  · exact .error _
  split
  · exact .error _
  · refine .ok (fun g g' hg => ?_)
    unfold addNoise
    have hlen : g'.rows.length = g.rows.length := hg.rows.length_eq.symm
    simp only [hg.dt, hlen, hg.cols, hg.cols', true_or, and_true]
    cases g.dt with
    | int => exact .error _
    | object => exact .error _
    | float =>
      simp only
      split
      · refine .ok ⟨rfl, rfl, rfl, ?_⟩
        simp only
        obtain ⟨h1, h2⟩ := moved_rows hg.rows
        rw [h1]
        have key : (g.rows.map (mirror sg n)).mapIdx (fun i r =>
            addNoiseRow n ω' (if t.toNat = 1 then 0 else i) r) =
            (g.rows.mapIdx (fun i r => addNoiseRow n ω (if t.toNat = 1 then 0 else i) r)).map
              (mirror sg n) := by
          apply List.ext_getElem
          · simp
          · intro i hi hi'
            simp only [List.getElem_mapIdx, List.getElem_map]
            have hi2 : i < g.rows.length := by simpa using hi
            have hlen := h2 _ (List.getElem_mem hi2)
            rw [eq_comm]
            unfold addNoiseRow
            apply List.ext_getElem
            · simp [mirror]
            · intro j hj hj'
              have hj2 : j < n := by simpa [mirror] using hj
              simp only [mirror, List.getElem_map, List.getElem_range, List.getElem_mapIdx]
              have e1 : (if n = 1 then 0 else j) = j := by split <;> omega
              rw [e1, hω _ j hj2]
              simp only [List.getD, List.getElem?_mapIdx]
              rw [List.getElem?_eq_getElem (by omega)]
              simp only [Option.map_some, Option.getD_some, e1]
              ring
        rw [key]
        apply moved_rows_mk
        intro r hr
        obtain ⟨i, hi, rfl⟩ := List.mem_mapIdx.1 hr
        simp only [addNoiseRow, List.length_mapIdx]
        exact h2 _ (List.getElem_mem hi)
      · exact .error _

/-! ### The algorithms -/

section algos
variable [FloorRing K]

/-- What is common to all algorithms for numeric individuals. -/
theorem mir_mk {σ : Type} {base base' : BaseCfg K (List K)} (hb : MirrorBase sg base base')
    {init init' : Draws K → Except PyErr (Gen (List K))}
    {learn learn' : σ → Gen (List K) → Gen (List K) → Draws K → Except PyErr σ}
    {sample sample' : σ → Draws K → Except PyErr (Gen (List K))}
    {e e' : Eda (List K) σ (Draws K)} (he : MkOk id base init learn sample e)
    (he' : MkOk id base' init' learn' sample' e') {ρ ρ' : Rand (Draws K)}
    (hρ : MirrorDraws sg base.nVars ρ.noise ρ'.noise) {rm0 rm : σ → σ → Prop}
    (hinit : base.initData = none → ExRel
      (GenRel (Moved base.nVars (mirror sg base.nVars)) base.nVars base.nVars) (init ρ.init) (init' ρ'.init))
    (hlearn : ∀ t m m' g g' el el', rm0 m m' →
      GenRel (Moved base.nVars (mirror sg base.nVars)) base.nVars base.nVars g g' →
      ExRel rm (learn m g el (ρ.learn t)) (learn' m' g' el' (ρ'.learn t)))
    (hsample : ∀ t m m', rm m m' → ExRel
      (GenRel (Moved base.nVars (mirror sg base.nVars)) base.nVars base.nVars)
      (sample m (ρ.sample t)) (sample' m' (ρ'.sample t)))
    (hw : ∀ m m', rm m m' → rm0 m m') :
    EdaSim (Moved base.nVars (mirror sg base.nVars)) base.nVars base.nVars rm0 rm e e' ρ ρ' where
  sizeGen := by rw [he.sizeGen, he'.sizeGen, hb.sizeGen]
  maxIter := by rw [he.maxIter, he'.maxIter, hb.maxIter]
  deadIter := by rw [he.deadIter, he'.deadIter, hb.deadIter]
  truncLen := by rw [he.truncLen, he'.truncLen, hb.sizeGen, hb.alpha]
  eliteLen := by rw [he.eliteLen, he'.eliteLen, hb.sizeGen, hb.eliteFactor]
  parallel := by rw [he.parallel, he'.parallel, hb.parallel]
  init := by
    cases hd : base.initData with
    | none =>
      have hd' : base'.initData = none := by rw [hb.data', hd]; rfl
      rw [he.initNone hd, he'.initNone hd']
      exact hinit hd
    | some d =>
      have hd' := hb.data'
      rw [hd] at hd'
      rw [(he.initSome d hd).2, (he'.initSome _ hd').2]
      exact .ok ⟨rfl, (he.initSome d hd).1, (he.initSome d hd).1, moved_rows_mk (hb.data d hd)⟩
  noise := by
    have h2 : base'.noiseAttr = base.noiseAttr := by unfold BaseCfg.noiseAttr; rw [hb.noise]
    rw [he.mkNoise, he'.mkNoise, h2, hb.sizeGen, hb.alpha, hb.nVars]
    have := mir_noise base.noiseAttr (selLen id base.sizeGen base.alpha) hρ
    rcases hx : mkWhiteNoise base.noiseAttr (selLen id base.sizeGen base.alpha) base.nVars ρ.noise
        with err | N <;>
      rcases hx' : mkWhiteNoise base.noiseAttr (selLen id base.sizeGen base.alpha) base.nVars
        ρ'.noise with err' | N'
    · rw [hx, hx'] at this; cases this; exact .error _
    · rw [hx, hx'] at this; cases this
    · rw [hx, hx'] at this; cases this
    · rw [hx, hx'] at this; obtain ⟨this⟩ := this; exact .ok this
  learn := by
    intro t m m' g g' el el' hm hg _
    rw [he.updatePm, he'.updatePm]
    exact hlearn t m m' g g' el el' hm hg
  sample := by
    intro t m m' hm
    rw [he.sample, he'.sample]
    exact hsample t m m' hm
  weaken := hw

theorem mir_contInit (hs : IsSigns n sg) {cfg cfg' : UMDAcCfg K} (h : MirrorCont sg cfg cfg')
    (hnv : cfg.base.nVars = n) (hok : ∃ x, contInit cfg = .ok x) {ω ω' : Draws K}
    (hω : if cfg.vector.isNone then MirrorUnif sg n ω ω' else MirrorDraws sg n ω ω')
    (hd : cfg.base.initData = none) :
    ExRel (GenRel (Moved n (mirror sg n)) n n) (contInitSample id cfg ω) (contInitSample id cfg' ω') := by
  have hn := h.base.nonempty
  have hn' : 0 < cfg'.base.nVars := by rw [h.base.nVars]; exact hn
  subst hnv
  rcases h.start with h1 | ⟨m, s, h1, h3⟩ | ⟨h1, h2, h3⟩
  · exact absurd hd h1.1
  · unfold contInitSample
    obtain ⟨x, hok⟩ := hok
    rw [contInit_vector h1 hn] at hok ⊢
    rw [contInit_vector h3 hn']
    rw [h1] at hω
    by_cases hl : m.length = cfg.base.nVars ∧ s.length = cfg.base.nVars
    · rw [if_pos hl, if_pos ⟨by rw [mirror_length, h.base.nVars], by rw [hl.2, h.base.nVars]⟩, h.base.sizeGen]
      have hm : MirGauss sg cfg.base.nVars { n := cfg.base.nVars, lb := -100, mean := m, std := s }
          { n := cfg'.base.nVars, lb := -100, mean := mirror sg cfg.base.nVars m, std := s } :=
        ⟨rfl, h.base.nVars, rfl, hl.1, hl.2, rfl, rfl⟩
      exact mir_sample hm (by simpa using hω) _
    · rw [if_neg hl] at hok
      simp at hok
  · obtain ⟨l, u, b1, b2, b3, b4⟩ := id h3
    rw [h1] at hω
    rw [contInitSample_bounds h1 b1.facts.2.1 b2.facts.2.1,
      contInitSample_bounds h2 (by rw [h.base.nVars]; exact b3.facts.2.1)
        (by rw [h.base.nVars]; exact b4.facts.2.1), h.base.sizeGen, h.base.nVars]
    exact mir_uniform hs h3 (by simpa using hω) _

variable {sq : K → K} {cfg cfg' : UMDAcCfg K} {e e' : Eda (List K) (UniGauss K) (Draws K)} {b b' : UniGauss K}
variable {ρ ρ' : Rand (Draws K)}

theorem mir_UMDAc (hs : IsSigns cfg.base.nVars sg) (h : MirrorCont sg cfg cfg')
    (he : UMDAc id sq cfg = .ok (e, b)) (he' : UMDAc id sq cfg' = .ok (e', b'))
    (hρ : MirrorRand sg cfg.base.nVars cfg.vector.isNone ρ ρ') :
    EdaSim (Moved cfg.base.nVars (mirror sg cfg.base.nVars)) cfg.base.nVars cfg.base.nVars
      (MirGauss0 cfg.base.nVars) (MirGauss sg cfg.base.nVars) e e' ρ ρ' ∧ MirGauss0 cfg.base.nVars b b' := by
  obtain ⟨h1, h2, rfl⟩ := mkCont_ok he
  obtain ⟨h1', h2', rfl⟩ := mkCont_ok he'
  refine ⟨?_, rfl, h.base.nVars, h.factor⟩
  refine mir_mk h.base (mkEda_ok h1) (mkEda_ok h1') hρ.noise (mir_contInit hs h rfl h2 hρ.init) ?_ ?_ ?_
  · intro t m m' g g' _ _ hm hg
    exact mir_learn hs h.base.nonempty hm hg
  · intro t m m' hm
    simp only [h.base.sizeGen]
    exact mir_sample hm (hρ.sample t) _
  · intro m m' hm
    exact ⟨hm.n1, hm.n2, hm.lb⟩

theorem mir_PBIL (hs : IsSigns cfg.base.nVars sg) (h : MirrorCont sg cfg cfg')
    (he : PBIL id sq cfg = .ok (e, b)) (he' : PBIL id sq cfg' = .ok (e', b'))
    (hρ : MirrorRand sg cfg.base.nVars cfg.vector.isNone ρ ρ') :
    EdaSim (Moved cfg.base.nVars (mirror sg cfg.base.nVars)) cfg.base.nVars cfg.base.nVars
      (MirGauss0 cfg.base.nVars) (MirGauss sg cfg.base.nVars) e e' ρ ρ' ∧ MirGauss0 cfg.base.nVars b b' := by
  obtain ⟨h1, h2, rfl⟩ := mkCont_ok he
  obtain ⟨h1', h2', rfl⟩ := mkCont_ok he'
  refine ⟨?_, rfl, h.base.nVars, h.factor⟩
  have hb : MirrorBase sg { cfg.base with alpha := 1 } { cfg'.base with alpha := 1 } :=
    ⟨h.base.sizeGen, h.base.maxIter, h.base.deadIter, h.base.nVars, rfl, h.base.eliteFactor, h.base.parallel,
      h.base.noise, h.base.nonempty, h.base.data, h.base.data'⟩
  refine mir_mk hb (mkEda_ok h1) (mkEda_ok h1') hρ.noise (mir_contInit hs h rfl h2 hρ.init) ?_ ?_ ?_
  · intro t m m' g g' _ _ hm hg
    simp only [h.base.alpha]
    exact mir_learnAdapt hs h.base.nonempty hm hg
  · intro t m m' hm
    simp only [h.base.sizeGen]
    exact mir_sample hm (hρ.sample t) _
  · intro m m' hm
    exact ⟨hm.n1, hm.n2, hm.lb⟩

/-! ### EMNA: all axes at once -/

theorem covEntry_mirror {rows : List (List K)} (hne : rows ≠ []) {i j : ℕ} (hi : i < n) (hj : j < n)
    (h1 : sg i * sg j = 1) : covEntry (rows.map (mirror sg n)) i j = covEntry rows i j := by
  unfold covEntry
  rw [colMean_mirror hne hi, colMean_mirror hne hj, foldl_add_map, foldl_add_map, List.map_map,
    List.length_map]
  congr 3
  apply List.map_congr_left
  intro r _
  simp only [Function.comp, mirror_getD r hi, mirror_getD r hj]
  calc (sg i * r.getD i 0 - sg i * colMean rows i) * (sg j * r.getD j 0 - sg j * colMean rows j)
      = sg i * sg j * ((r.getD i 0 - colMean rows i) * (r.getD j 0 - colMean rows j)) := by ring
    _ = _ := by rw [h1, one_mul]

/-- Models after learning. -/
structure MirMulti (sg : ℕ → K) (n : ℕ) (m m' : MultiGauss K) : Prop where
  good : m.Good n
  good' : m'.Good n
  lb : m'.lb = m.lb
  ub : m'.ub = m.ub
  means : m'.means = mirror sg n m.means
  cov : m'.cov = m.cov

theorem sum_scale (s : K) (l : List K) : (l.map (fun x => s * x)).sum = s * l.sum := by
  have := sum_affine l s 0
  simpa using this

theorem mir_multi_sample {s : K} {fac : List (List K) → List (List K)} {m m' : MultiGauss K}
    (h : MirMulti (fun _ => s) n m m') {ω ω' : Draws K} (hω : MirrorDraws (fun _ => s) n ω ω') (size : ℤ) :
    ExRel (GenRel (Moved n (mirror (fun _ => s) n)) n n) (m.sample fac size ω) (m'.sample fac size ω') := by
  rcases lt_or_ge size 0 with hs | hs
  · unfold MultiGauss.sample
    rw [if_pos hs, if_pos hs]
    exact .error _
  · rw [MultiGauss.sample_eq h.good hs, MultiGauss.sample_eq h.good' hs]
    refine .ok ⟨rfl, rfl, rfl, moved_range _ (fun i => ⟨by simp, ?_⟩)⟩
    refine (mirror_congr ?_).symm
    intro j hj
    have hs : ((List.range n).map (fun k => ω' i k * entry (fac m'.cov) k j)) =
        ((List.range n).map (fun k => ω i k * entry (fac m.cov) k j)).map (fun x => s * x) := by
      rw [List.map_map]
      apply List.map_congr_left
      intro k hk
      rw [hω i k (List.mem_range.1 hk), h.cov]
      simp only [Function.comp]
      ring
    rw [getD_range_map hj, h.means, mirror_getD _ hj, hs, sum_scale]
    ring

theorem mir_multi_learn (hs : IsSigns n sg) (hall : ∀ i < n, ∀ j < n, sg i = sg j) {m m' : MultiGauss K}
    (h : MultiRel0 n m m') {g g' : Gen (List K)} (hg : GenRel (Moved n (mirror sg n)) n n g g') :
    ExRel (MirMulti sg n) (m.learn sq g) (m'.learn sq g') := by
  obtain ⟨h1, h2, h3, h4⟩ := h
  obtain ⟨hr, hrect⟩ := moved_rows hg.rows
  unfold MultiGauss.learn
  rw [hg.cols, hg.cols', h1, h2, if_neg (lt_irrefl n), if_neg (lt_irrefl n), hr, List.length_map]
  by_cases hn1 : n = 1
  · rw [if_pos hn1, if_pos hn1]; exact .error _
  rw [if_neg hn1, if_neg hn1]
  by_cases hn2 : n = 0 ∨ g.rows.length < 2
  · rw [if_pos hn2, if_pos hn2]; exact .error _
  rw [if_neg hn2, if_neg hn2]
  have hne : g.rows ≠ [] := by
    intro h0; rw [h0] at hn2; simp at hn2
  refine .ok ⟨⟨rfl, by simp, by simp, ?_⟩, ⟨rfl, by simp, by simp, ?_⟩, h3, h4, ?_, ?_⟩
  · intro r hr; obtain ⟨i, _, rfl⟩ := List.mem_map.1 hr; simp
  · intro r hr; obtain ⟨i, _, rfl⟩ := List.mem_map.1 hr; simp
  · refine (mirror_congr ?_).symm
    intro j hj
    rw [getD_range_map hj, colMean_mirror hne hj]
  · simp only
    apply List.map_congr_left
    intro i hi
    apply List.map_congr_left
    intro j hj
    have hi := List.mem_range.1 hi
    have hj := List.mem_range.1 hj
    rw [covEntry_mirror hne hi hj (by rw [hall i hi j hj]; exact IsSigns.sq hs hj),
      colStd_mirror hs hne hi, h3, h4]

theorem mir_EMNA {s : K} {fac : List (List K) → List (List K)} {cfg cfg' : EMNACfg K}
    (hs : s = 1 ∨ s = -1) (hb : MirrorBase (fun _ => s) cfg.base cfg'.base)
    (hl : cfg'.lowerFactor = cfg.lowerFactor) (hu : cfg'.upperFactor = cfg.upperFactor)
    (hbd : cfg.base.initData ≠ none ∨ MirrorBounds (fun _ => s) cfg.base.nVars
      cfg.lower cfg.upper cfg'.lower cfg'.upper)
    {e e' : Eda (List K) (MultiGauss K) (Draws K)} {b b' : MultiGauss K}
    (he : EMNA id sq fac cfg = .ok (e, b)) (he' : EMNA id sq fac cfg' = .ok (e', b'))
    (hρ : MirrorRand (fun _ => s) cfg.base.nVars true ρ ρ') :
    EdaSim (Moved cfg.base.nVars (mirror (fun _ => s) cfg.base.nVars)) cfg.base.nVars cfg.base.nVars
      (MultiRel0 cfg.base.nVars) (MirMulti (fun _ => s) cfg.base.nVars) e e' ρ ρ' ∧
      MultiRel0 cfg.base.nVars b b' := by
  obtain ⟨h1, h2, rfl⟩ := EMNA_ok he
  obtain ⟨h1', h2', rfl⟩ := EMNA_ok he'
  refine ⟨?_, rfl, hb.nVars, hl, hu⟩
  have hsg : IsSigns cfg.base.nVars (fun _ => s) := fun _ _ => hs
  refine mir_mk hb (mkEda_ok h1) (mkEda_ok h1') hρ.noise ?_ ?_ ?_ ?_
  · intro hd
    rcases hbd with hbd | hbd
    · exact absurd hd hbd
    · obtain ⟨l, u, b1, b2, b3, b4⟩ := id hbd
      have e1 : ∀ {lo up : Bound K}, lo.check cfg.base.nVars = true → up.check cfg.base.nVars = true →
          ∀ ω, uniformInitSample id cfg.base.nVars lo up cfg.base.sizeGen ω =
            UniformInit.sample id ⟨cfg.base.nVars, lo, up⟩ cfg.base.sizeGen ω := by
        intro lo up q1 q2 ω
        simp [uniformInitSample, UniformInit.new, q1, q2]
      rw [hb.sizeGen, hb.nVars, e1 b1.facts.2.1 b2.facts.2.1, e1 b3.facts.2.1 b4.facts.2.1]
      exact mir_uniform hsg hbd (by simpa using hρ.init) _
  · intro t m m' g g' _ _ hm hg
    exact mir_multi_learn hsg (fun _ _ _ _ => rfl) hm hg
  · intro t m m' hm
    simp only [hb.sizeGen]
    exact mir_multi_sample hm (hρ.sample t) _
  · intro m m' hm
    exact ⟨hm.good.n, hm.good'.n, hm.lb, hm.ub⟩

end algos

end Verif
