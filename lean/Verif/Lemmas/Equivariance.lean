/-
Changes of coordinates: the pieces of `UMDAc`, `PBIL`, `EMNA` and `UMDAd`.
-/
import Verif.Lemmas.Sim
import Verif.Lemmas.MultiGauss
import Verif.Spec.Equivariance

set_option linter.unusedSectionVars false

namespace Verif

open Spec

/-- Related individuals: `n` entries, and the image. -/
def Moved {α β : Type} (n : ℕ) (φ : List α → β) (r : List α) (r' : β) : Prop :=
  r.length = n ∧ r' = φ r

theorem moved_rows {α β : Type} {n : ℕ} {φ : List α → β} {l : List (List α)} {l' : List β}
    (h : List.Forall₂ (Moved n φ) l l') : l' = l.map φ ∧ Rect n l := by
  induction h with
  | nil => exact ⟨rfl, by intro r hr; simp at hr⟩
  | cons hab _ ih =>
    obtain ⟨h1, h2⟩ := hab
    obtain ⟨rfl, ih⟩ := ih
    subst h2
    refine ⟨rfl, ?_⟩
    intro r hr
    rcases List.mem_cons.1 hr with rfl | hr
    · exact h1
    · exact ih r hr

theorem moved_rows_mk {α β : Type} {n : ℕ} {φ : List α → β} {l : List (List α)} (h : Rect n l) :
    List.Forall₂ (Moved n φ) l (l.map φ) := by
  induction l with
  | nil => exact .nil
  | cons r l ih =>
    exact .cons ⟨h r (by simp), rfl⟩ (ih (fun x hx => h x (by simp [hx])))

theorem moved_range {α β : Type} {n : ℕ} {φ : List α → β} {F : ℕ → List α} {F' : ℕ → β} (N : ℕ)
    (h : ∀ i, (F i).length = n ∧ F' i = φ (F i)) :
    List.Forall₂ (Moved n φ) ((List.range N).map F) ((List.range N).map F') := by
  generalize List.range N = l
  induction l with
  | nil => exact .nil
  | cons i l ih => exact .cons (h i) ih

/-- Related runs give images. -/
theorem image_of_sim {α β C σ σ' : Type} {n n' : ℕ} {φ : List α → β} {rm0 : σ → σ' → Prop}
    {x : Except PyErr (EdaResult (List α) C × St (List α) C σ)}
    {y : Except PyErr (EdaResult β C × St β C σ')}
    (h : ExRel (fun x y => ResRel (Moved n φ) x.1 y.1 ∧ StRel (Moved n φ) n n' rm0 x.2 y.2) x y) :
    Image φ x y := by
  cases h with
  | error err => rfl
  | @ok a b h =>
    obtain ⟨res, s⟩ := a
    obtain ⟨res', s'⟩ := b
    obtain ⟨h1, h2⟩ := h
    simp only at h1 h2
    refine ⟨?_, h1.bestCost, h1.nFev, h1.history, ?_⟩
    · have := h1.bestInd
      generalize res.bestInd = u at this
      generalize res'.bestInd = v at this
      cases this with
      | index i => rfl
      | row hr => rw [hr.2]; rfl
    · have := h2.log
      generalize s.log = l at this
      generalize s'.log = l' at this
      induction this with
      | nil => rfl
      | @cons u v _ _ huv _ ih =>
        rw [ih, List.map_cons]
        congr 1
        clear ih
        induction huv with
        | nil => rfl
        | cons hp _ ih =>
          rw [ih, List.map_cons, ← hp.1.2, hp.2]

variable {K : Type} [Field K] [LinearOrder K] [IsStrictOrderedRing K]
variable {c : K} {a : ℕ → K} {π : ℕ → ℕ} {n n' : ℕ}

theorem recoord_length (r : List K) : (recoord c a π n' r).length = n' := by simp [recoord]

theorem recoord_getD (r : List K) {j : ℕ} (hj : j < n') :
    (recoord c a π n' r).getD j 0 = c * r.getD (π j) 0 + a j := by
  simp [recoord, List.getD, hj]

theorem recoord_congr {r : List K} {F : ℕ → K} (h : ∀ j < n', c * r.getD (π j) 0 + a j = F j) :
    recoord c a π n' r = (List.range n').map F := by
  apply List.map_congr_left
  intro j hj
  exact h j (List.mem_range.1 hj)

theorem getD_range_map {F : ℕ → K} {i : ℕ} (hi : i < n) :
    ((List.range n).map F).getD i 0 = F i := by
  simp [List.getD, hi]

/-! ### Columns and their statistics -/

theorem col_recoord (rows : List (List K)) {j : ℕ} (hj : j < n') :
    col (rows.map (recoord c a π n')) j = (col rows (π j)).map (fun x => c * x + a j) := by
  simp only [col, List.map_map]
  apply List.map_congr_left
  intro r _
  exact recoord_getD r hj

theorem sum_affine (l : List K) (c b : K) :
    (l.map (fun x => c * x + b)).sum = c * l.sum + l.length * b := by
  induction l with
  | nil => simp
  | cons x l ih =>
    simp only [List.map_cons, List.sum_cons, ih, List.length_cons]
    push_cast
    ring

theorem mean_affine {l : List K} (h : l ≠ []) (c b : K) :
    mean (l.map (fun x => c * x + b)) = c * mean l + b := by
  have : (l.length : K) ≠ 0 := by
    have := List.length_pos_of_ne_nil h
    positivity
  unfold mean
  rw [sum_affine, List.length_map]
  field_simp

theorem variance_affine {l : List K} (h : l ≠ []) (c b : K) :
    variance (l.map (fun x => c * x + b)) = c * c * variance l := by
  unfold variance
  rw [mean_affine h, List.map_map]
  have : ((fun x => (x - (c * mean l + b)) ^ 2) ∘ fun x => c * x + b) =
      fun x => c * c * ((x - mean l) ^ 2) := by
    funext x; simp only [Function.comp]; ring
  rw [this]
  have key : ∀ l : List K, ∀ F : K → K, (l.map (fun x => c * c * F x)).sum = c * c * (l.map F).sum := by
    intro l F
    induction l with
    | nil => simp
    | cons x l ih => simp only [List.map_cons, List.sum_cons, ih]; ring
  unfold mean
  rw [key]
  simp only [List.length_map]
  rw [mul_div_assoc]

theorem IsSqrt.scale {sq : K → K} (hsq : IsSqrt sq) (hc : 0 < c) {x : K} (hx : 0 ≤ x) :
    sq (c * c * x) = c * sq x := by
  obtain ⟨h1, h2⟩ := hsq x hx
  obtain ⟨h3, h4⟩ := hsq (c * c * x) (by positivity)
  have h5 : sq (c * c * x) * sq (c * c * x) = (c * sq x) * (c * sq x) := by
    rw [h4]
    calc c * c * x = c * c * (sq x * sq x) := by rw [h2]
      _ = _ := by ring
  exact (mul_self_inj h3 (by positivity)).1 h5

theorem colMean_recoord {rows : List (List K)} (hne : rows ≠ []) {j : ℕ} (hj : j < n') :
    colMean (rows.map (recoord c a π n')) j = c * colMean rows (π j) + a j := by
  rw [colMean_eq, colMean_eq, col_recoord rows hj, mean_affine (by simpa [col] using hne)]

theorem colStd_recoord {sq : K → K} (hsq : IsSqrt sq) (hc : 0 < c) {rows : List (List K)}
    (hne : rows ≠ []) {j : ℕ} (hj : j < n') :
    colStd sq (rows.map (recoord c a π n')) j = c * colStd sq rows (π j) := by
  rw [colStd_eq, colStd_eq, col_recoord rows hj, variance_affine (by simpa [col] using hne),
    IsSqrt.scale hsq hc (variance_nonneg _)]

theorem floorStd_scale (hc : 0 < c) (lb s : K) : floorStd (c * lb) (c * s) = c * floorStd lb s := by
  unfold floorStd
  simp only [mul_lt_mul_iff_right₀ hc]
  split <;> rfl

/-! ### The univariate Gaussian -/

/-- Models before learning. -/
def GaussRel0 (c : K) (n n' : ℕ) (lb : K) (m m' : UniGauss K) : Prop :=
  m.n = n ∧ m.lb = lb ∧ m'.n = n' ∧ m'.lb = c * lb

/-- Models after learning. -/
structure GaussRel (c : K) (a : ℕ → K) (π : ℕ → ℕ) (n n' : ℕ) (lb lb' : K) (m m' : UniGauss K) :
    Prop where
  good : m.Good n lb
  good' : m'.Good n' lb'
  mean : m'.mean = recoord c a π n' m.mean
  std : m'.std = recoord c 0 π n' m.std

theorem gauss_sample {m m' : UniGauss K} {lb lb' : K} (h : GaussRel c a π n n' lb lb' m m')
    (hπ : ∀ j < n', π j < n) {ω ω' : Draws K} (hω : SameDraws 1 π n' ω ω') (size : ℤ) :
    ExRel (GenRel (Moved n (recoord c a π n')) n n') (m.sample size ω) (m'.sample size ω') := by
  rcases lt_or_ge size 0 with hs | hs
  · have key : ∀ {b : UniGauss K} {k : ℕ} {l : K} {w : Draws K}, b.Good k l →
        b.sample size w = .error .valueError := by
      intro b k l w hb
      unfold UniGauss.sample
      rw [if_pos hs]
      split <;> rfl
    rw [key h.good, key h.good']
    exact .error _
  · rw [UniGauss.sample_eq h.good hs, UniGauss.sample_eq h.good' hs]
    refine .ok ⟨rfl, rfl, rfl, moved_range _ (fun i => ⟨by simp, ?_⟩)⟩
    refine (recoord_congr ?_).symm
    intro j hj
    rw [getD_range_map (hπ j hj), h.mean, h.std, recoord_getD _ hj, recoord_getD _ hj, hω i j hj]
    simp only [Pi.zero_apply]
    ring

theorem gauss_learn {sq : K → K} (hsq : IsSqrt sq) (hc : 0 < c) (hπ : ∀ j < n', π j < n)
    (hn : 0 < n') {lb : K} {m m' : UniGauss K} (h : GaussRel0 c n n' lb m m') {g g' : Gen (List K)}
    (hg : GenRel (Moved n (recoord c a π n')) n n' g g') :
    ExRel (GaussRel c a π n n' lb (c * lb)) (m.learn sq g) (m'.learn sq g') := by
  obtain ⟨h1, h2, h3, h4⟩ := h
  obtain ⟨hr, hrect⟩ := moved_rows hg.rows
  have hn0 : 0 < n := lt_of_le_of_lt (Nat.zero_le _) (hπ 0 hn)
  unfold UniGauss.learn
  rw [if_neg (show ¬ m.n = 0 by omega), if_neg (show ¬ m'.n = 0 by omega),
    if_neg (show ¬ g.cols < m.n by rw [hg.cols]; omega),
    if_neg (show ¬ g'.cols < m'.n by rw [hg.cols']; omega), hr]
  by_cases hne : g.rows = []
  · rw [if_pos hne, if_pos (by simp [hne])]; exact .error _
  · rw [if_neg hne, if_neg (by simpa using hne)]
    refine .ok ⟨⟨h1, h2, by simp [h1], by simp [h1], ?_⟩, ⟨h3, h4, by simp [h3], by simp [h3], ?_⟩, ?_, ?_⟩
    · intro s hs
      obtain ⟨j, _, rfl⟩ := List.mem_map.1 hs
      exact (floorStd_colStd hsq _ _ _).1
    · intro s hs
      obtain ⟨j, _, rfl⟩ := List.mem_map.1 hs
      exact (floorStd_colStd hsq _ _ _).1
    · simp only
      rw [h3, h1]
      refine (recoord_congr ?_).symm
      intro j hj
      rw [getD_range_map (hπ j hj), colMean_recoord hne hj]
    · simp only
      rw [h3, h1]
      refine (recoord_congr ?_).symm
      intro j hj
      rw [getD_range_map (hπ j hj), colStd_recoord hsq hc hne hj, h4, h2, floorStd_scale hc]
      simp

theorem gauss_learnAdapt {sq : K → K} (hsq : IsSqrt sq) (hc : 0 < c) (hπ : ∀ j < n', π j < n)
    (hn : 0 < n') {lb alpha : K} {m m' : UniGauss K} (h : GaussRel0 c n n' lb m m')
    {g g' : Gen (List K)} (hg : GenRel (Moved n (recoord c a π n')) n n' g g') :
    ExRel (GaussRel c a π n n' lb (c * lb)) (m.learnAdapt sq alpha g) (m'.learnAdapt sq alpha g') := by
  obtain ⟨h1, h2, h3, h4⟩ := h
  obtain ⟨hr, hrect⟩ := moved_rows hg.rows
  have hn0 : 0 < n := lt_of_le_of_lt (Nat.zero_le _) (hπ 0 hn)
  unfold UniGauss.learnAdapt
  rw [if_neg (show ¬ m.n = 0 by omega), if_neg (show ¬ m'.n = 0 by omega),
    if_neg (show ¬ g.cols < m.n by rw [hg.cols]; omega),
    if_neg (show ¬ g'.cols < m'.n by rw [hg.cols']; omega), hr]
  rcases hg0 : g.rows with _ | ⟨r0, _ | ⟨r1, rs⟩⟩
  · exact .error _
  · exact .error _
  · obtain ⟨rl, hl⟩ : ∃ rl, (r0 :: r1 :: rs).getLast? = some rl :=
      ⟨_, List.getLast?_eq_some_getLast (by simp)⟩
    have hl' : ((r0 :: r1 :: rs).map (recoord c a π n')).getLast? = some (recoord c a π n' rl) := by
      rw [List.getLast?_map, hl]; rfl
    have hne : (r0 :: r1 :: rs) ≠ [] := by simp
    rw [hl', hl]
    simp only [List.getElem?_cons_zero, List.getElem?_cons_succ, List.map_cons]
    simp only [← List.map_cons]
    refine .ok ⟨⟨h1, h2, by simp [h1], by simp [h1], ?_⟩, ⟨h3, h4, by simp [h3], by simp [h3], ?_⟩, ?_, ?_⟩
    · intro s hs
      obtain ⟨j, _, rfl⟩ := List.mem_map.1 hs
      exact (floorStd_colStd hsq _ _ _).1
    · intro s hs
      obtain ⟨j, _, rfl⟩ := List.mem_map.1 hs
      exact (floorStd_colStd hsq _ _ _).1
    · simp only
      rw [h3, h1]
      refine (recoord_congr ?_).symm
      intro j hj
      rw [getD_range_map (hπ j hj), colMean_recoord hne hj, recoord_getD _ hj, recoord_getD _ hj,
        recoord_getD _ hj]
      ring
    · simp only
      rw [h3, h1]
      refine (recoord_congr ?_).symm
      intro j hj
      rw [getD_range_map (hπ j hj), colStd_recoord hsq hc hne hj, h4, h2, floorStd_scale hc]
      simp

/-! ### The initial population -/

theorem Spec.IsBound.facts {v : ℕ → K} {b : Bound K} (h : IsBound n v b) : b.isNone = false ∧
    b.check n = true ∧ b.fits n = true ∧ ∀ j < n, b.at j = v j := by
  cases h with
  | scalar x h => exact ⟨rfl, rfl, rfl, fun j hj => (h j hj).symm⟩
  | list l h1 h2 =>
    refine ⟨rfl, by simp [Bound.check, h1], by simp [Bound.fits, h1], ?_⟩
    intro j hj
    have : (if l.length = 1 then 0 else j) = j := by split <;> omega
    simp [Bound.at, this, List.getD, h2 j hj]
  | array l h1 h2 =>
    refine ⟨rfl, rfl, by simp [Bound.fits, h1], ?_⟩
    intro j hj
    have : (if l.length = 1 then 0 else j) = j := by split <;> omega
    simp [Bound.at, this, List.getD, h2 j hj]

/-- The rounding commutes with the change of coordinates. -/
def FlMoves (fl : K → K) (c : K) (a : ℕ → K) : Prop := ∀ (j : ℕ) (l u x : K),
  fl (c * l + a j + fl (fl (c * u + a j - (c * l + a j)) * x)) = c * fl (l + fl (fl (u - l) * x)) + a j

theorem flMoves_id (c : K) (a : ℕ → K) : FlMoves id c a := by
  intro j l u x; simp only [id]; ring

theorem flMoves_one (fl : K → K) : FlMoves fl 1 0 := by
  intro j l u x; simp

theorem uniform_sample {fl : K → K} (hfl : FlMoves fl c a) (hπ : ∀ j < n', π j < n)
    {lo up lo' up' : Bound K} (h : SameBounds c a π n n' lo up lo' up') {ω ω' : Draws K}
    (hω : SameDraws 1 π n' ω ω') (size : ℤ) :
    ExRel (GenRel (Moved n (recoord c a π n')) n n')
      (UniformInit.sample fl ⟨n, lo, up⟩ size ω) (UniformInit.sample fl ⟨n', lo', up'⟩ size ω') := by
  obtain ⟨l, u, h1, h2, h3, h4⟩ := h
  obtain ⟨a1, a2, a3, a4⟩ := h1.facts
  obtain ⟨b1, b2, b3, b4⟩ := h2.facts
  obtain ⟨c1, c2, c3, c4⟩ := h3.facts
  obtain ⟨d1, d2, d3, d4⟩ := h4.facts
  unfold UniformInit.sample
  simp only [a1, b1, c1, d1, a3, b3, c3, d3, Bool.false_eq_true, or_self, if_false, and_self,
    not_true_eq_false]
  split
  · exact .error _
  · refine .ok ⟨rfl, rfl, rfl, moved_range _ (fun i => ⟨by simp, ?_⟩)⟩
    refine (recoord_congr ?_).symm
    intro j hj
    rw [getD_range_map (hπ j hj), a4 _ (hπ j hj), b4 _ (hπ j hj), c4 _ hj, d4 _ hj, hω i j hj, one_mul]
    exact (hfl j _ _ _).symm

theorem contInitSample_bounds [FloorRing K] {fl : K → K} {cfg : UMDAcCfg K} (hv : cfg.vector = none)
    (hl : cfg.lower.check cfg.base.nVars = true) (hu : cfg.upper.check cfg.base.nVars = true)
    (ω : Draws K) : contInitSample fl cfg ω =
      UniformInit.sample fl ⟨cfg.base.nVars, cfg.lower, cfg.upper⟩ cfg.base.sizeGen ω := by
  simp [contInitSample, contInit, hv, UniformInit.new, hl, hu, ContInit.sample]

theorem contInit_vector [FloorRing K] {cfg : UMDAcCfg K} {m s : List K}
    (hv : cfg.vector = some [m, s]) (hn : 0 < cfg.base.nVars) :
    contInit cfg = if m.length = cfg.base.nVars ∧ s.length = cfg.base.nVars then
      .ok (.gauss { n := cfg.base.nVars, lb := -100, mean := m, std := s }) else .error .assertion := by
  unfold contInit
  rw [hv]
  simp only
  split
  · rename_i h
    unfold uniGaussInit
    rw [if_neg (by omega), if_neg (by omega)]
  · rfl

/-! ### The white noise -/

theorem noise_rel (hc : 0 < c) {w : K} (hw : 0 ≤ w) (t : ℤ) {ω ω' : Draws K}
    (hπ : ∀ j < n', π j < n) (hω : SameDraws c π n' ω ω') :
    ExRel (fun N N' => ∀ g g', GenRel (Moved n (recoord c a π n')) n n' g g' →
      ExRel (GenRel (Moved n (recoord c a π n')) n n') (addNoise N g) (addNoise N' g'))
      (mkWhiteNoise w t n ω) (mkWhiteNoise (c * w) t n' ω') := by
  unfold mkWhiteNoise
  have hcw : 0 ≤ c * w := by positivity
  by_cases h0 : w = 0
  · rw [if_pos h0, if_pos (by simp [h0])]
    refine .ok (fun g g' hg => ?_)
    unfold addNoise
    simp only [hg.dt]
    cases g.dt with
    | int => exact .ok hg
    | float => exact .ok hg
    | object => exact .error _
  · rw [if_neg h0, if_neg (show ¬ c * w = 0 from mul_ne_zero hc.ne' h0),
      if_neg (show ¬ w = -1 by intro h; linarith), if_neg (show ¬ c * w = -1 by intro h; linarith),
      if_neg (show ¬ w < 0 by linarith), if_neg (show ¬ c * w < 0 by linarith)]
    split
    · exact .error _
    · refine .ok (fun g g' hg => ?_)
      unfold addNoise
      have hlen : g'.rows.length = g.rows.length := hg.rows.length_eq.symm
      simp only [hg.dt, hlen, hg.cols, hg.cols', true_or, and_true]
      cases g.dt with
      | int => exact .error _
      | object => exact .error _
      | float =>
        simp only
        split
        · refine .ok ⟨rfl, rfl, rfl, ?_⟩
          simp only
          obtain ⟨h1, h2⟩ := moved_rows hg.rows
          rw [h1]
          have key : (g.rows.map (recoord c a π n')).mapIdx (fun i r =>
              addNoiseRow n' ω' (if t.toNat = 1 then 0 else i) r) =
              (g.rows.mapIdx (fun i r => addNoiseRow n ω (if t.toNat = 1 then 0 else i) r)).map
                (recoord c a π n') := by
            apply List.ext_getElem
            · simp
            · intro i hi hi'
              simp only [List.getElem_mapIdx, List.getElem_map]
              have hi2 : i < g.rows.length := by simpa using hi
              have hlen := h2 _ (List.getElem_mem hi2)
              refine (?_ : _ = _)
              rw [eq_comm]
              unfold addNoiseRow
              apply List.ext_getElem
              · simp [recoord]
              · intro j hj hj'
                have hj2 : j < n' := by simpa [recoord] using hj
                have hpj := hπ j hj2
                simp only [recoord, List.getElem_map, List.getElem_range, List.getElem_mapIdx]
                have e1 : (if n' = 1 then 0 else j) = j := by split <;> omega
                have e2 : (if n = 1 then 0 else π j) = π j := by split <;> omega
                rw [e1, hω _ j hj2]
                simp only [List.getD, List.getElem?_mapIdx]
                rw [List.getElem?_eq_getElem (by omega)]
                simp only [Option.map_some, Option.getD_some, e2]
                ring
          rw [key]
          apply moved_rows_mk
          intro r hr
          obtain ⟨i, hi, rfl⟩ := List.mem_mapIdx.1 hr
          simp only [addNoiseRow, List.length_mapIdx]
          exact h2 _ (List.getElem_mem hi)
        · exact .error _

/-! ### The algorithms -/

section algos
variable [FloorRing K]

theorem noiseAttr_scale (hc : 0 < c) {cfg cfg' : BaseCfg K (List K)} (h : SameBase c a π cfg cfg') :
    0 ≤ cfg.noiseAttr ∧ cfg'.noiseAttr = c * cfg.noiseAttr := by
  have h1 := h.noise
  have h2 := h.noiseNonneg
  unfold BaseCfg.noiseAttr
  rw [h1]
  cases hw : cfg.wNoise with
  | none => simp
  | some w =>
    simp only [Option.map_some]
    by_cases h0 : w = 0
    · simp [h0]
    · rw [if_neg h0, if_neg (mul_ne_zero hc.ne' h0)]
      exact ⟨h2 w hw, rfl⟩

/-- What is common to all algorithms for numeric individuals. -/
theorem mk_sim {σ : Type} {fl : K → K} (hc : 0 < c) {base base' : BaseCfg K (List K)}
    (hb : SameBase c a π base base')
    {init init' : Draws K → Except PyErr (Gen (List K))}
    {learn learn' : σ → Gen (List K) → Gen (List K) → Draws K → Except PyErr σ}
    {sample sample' : σ → Draws K → Except PyErr (Gen (List K))}
    {e e' : Eda (List K) σ (Draws K)} (he : MkOk fl base init learn sample e)
    (he' : MkOk fl base' init' learn' sample' e') {ρ ρ' : Rand (Draws K)}
    (hρ : SameDraws c π base'.nVars ρ.noise ρ'.noise) {rm0 rm : σ → σ → Prop}
    (hinit : base.initData = none → ExRel
      (GenRel (Moved base.nVars (recoord c a π base'.nVars)) base.nVars base'.nVars)
      (init ρ.init) (init' ρ'.init))
    (hlearn : ∀ t m m' g g' el el', rm0 m m' →
      GenRel (Moved base.nVars (recoord c a π base'.nVars)) base.nVars base'.nVars g g' →
      ExRel rm (learn m g el (ρ.learn t)) (learn' m' g' el' (ρ'.learn t)))
    (hsample : ∀ t m m', rm m m' → ExRel
      (GenRel (Moved base.nVars (recoord c a π base'.nVars)) base.nVars base'.nVars)
      (sample m (ρ.sample t)) (sample' m' (ρ'.sample t)))
    (hw : ∀ m m', rm m m' → rm0 m m') :
    EdaSim (Moved base.nVars (recoord c a π base'.nVars)) base.nVars base'.nVars rm0 rm e e' ρ ρ' where
  sizeGen := by rw [he.sizeGen, he'.sizeGen, hb.sizeGen]
  maxIter := by rw [he.maxIter, he'.maxIter, hb.maxIter]
  deadIter := by rw [he.deadIter, he'.deadIter, hb.deadIter]
  truncLen := by rw [he.truncLen, he'.truncLen, hb.sizeGen, hb.alpha]
  eliteLen := by rw [he.eliteLen, he'.eliteLen, hb.sizeGen, hb.eliteFactor]
  parallel := by rw [he.parallel, he'.parallel, hb.parallel]
  init := by
    cases hd : base.initData with
    | none =>
      have hd' : base'.initData = none := by rw [hb.data', hd]; rfl
      rw [he.initNone hd, he'.initNone hd']
      exact hinit hd
    | some d =>
      have hd' := hb.data'
      rw [hd] at hd'
      rw [(he.initSome d hd).2, (he'.initSome _ hd').2]
      exact .ok ⟨rfl, (he.initSome d hd).1, rfl, moved_rows_mk (hb.data d hd)⟩
  noise := by
    obtain ⟨h1, h2⟩ := noiseAttr_scale hc hb
    rw [he.mkNoise, he'.mkNoise, h2, hb.sizeGen, hb.alpha]
    have := noise_rel (a := a) hc h1 (selLen fl base.sizeGen base.alpha) hb.vars hρ
    rcases hx : mkWhiteNoise base.noiseAttr (selLen fl base.sizeGen base.alpha) base.nVars ρ.noise
        with err | N <;>
      rcases hx' : mkWhiteNoise (c * base.noiseAttr) (selLen fl base.sizeGen base.alpha) base'.nVars
        ρ'.noise with err' | N'
    · rw [hx, hx'] at this; cases this; exact .error _
    · rw [hx, hx'] at this; cases this
    · rw [hx, hx'] at this; cases this
    · rw [hx, hx'] at this; obtain ⟨this⟩ := this; exact .ok this
  learn := by
    intro t m m' g g' el el' hm hg _
    rw [he.updatePm, he'.updatePm]
    exact hlearn t m m' g g' el el' hm hg
  sample := by
    intro t m m' hm
    rw [he.sample, he'.sample]
    exact hsample t m m' hm
  weaken := hw

theorem contInit_sim {fl : K → K} (hfl : FlMoves fl c a) (hc : 0 < c) {cfg cfg' : UMDAcCfg K}
    (h : SameCont c a π cfg cfg') (hok : ∃ x, contInit cfg = .ok x)
    {ω ω' : Draws K} (hω : SameDraws 1 π cfg'.base.nVars ω ω') (hd : cfg.base.initData = none) :
    ExRel (GenRel (Moved cfg.base.nVars (recoord c a π cfg'.base.nVars)) cfg.base.nVars cfg'.base.nVars)
      (contInitSample fl cfg ω) (contInitSample fl cfg' ω') := by
  have hn' := h.base.nonempty
  have hn : 0 < cfg.base.nVars := lt_of_le_of_lt (Nat.zero_le _) (h.base.vars 0 hn')
  rcases h.start with h1 | ⟨m, s, h1, h2, h3⟩ | ⟨h1, h2, h3⟩
  · exact absurd hd h1
  · unfold contInitSample
    obtain ⟨x, hok⟩ := hok
    rw [contInit_vector h1 hn] at hok ⊢
    rw [contInit_vector h3 hn']
    by_cases hl : m.length = cfg.base.nVars ∧ s.length = cfg.base.nVars
    · rw [if_pos hl, if_pos ⟨recoord_length _, recoord_length _⟩, h.base.sizeGen]
      refine gauss_sample (n := cfg.base.nVars) (n' := cfg'.base.nVars) (lb := (-100 : K)) (lb' := (-100 : K)) ⟨⟨rfl, rfl, hl.1, hl.2, h2⟩,
        ⟨rfl, rfl, recoord_length _, recoord_length _, ?_⟩, rfl, rfl⟩ h.base.vars hω _
      intro x hx
      simp only [recoord, List.mem_map, List.mem_range] at hx
      obtain ⟨j, hj, rfl⟩ := hx
      have hpj := h.base.vars j hj
      have hnn : 0 ≤ s.getD (π j) 0 := by
        rw [List.getD, List.getElem?_eq_getElem (by omega)]
        exact h2 _ (List.getElem_mem _)
      simp only [Pi.zero_apply, add_zero]
      positivity
    · rw [if_neg hl] at hok
      simp at hok
  · obtain ⟨l, u, b1, b2, b3, b4⟩ := id h3
    rw [contInitSample_bounds h1 b1.facts.2.1 b2.facts.2.1,
      contInitSample_bounds h2 b3.facts.2.1 b4.facts.2.1, h.base.sizeGen]
    exact uniform_sample hfl h.base.vars h3 hω _

theorem UMDAc_sim {fl sq : K → K} (hfl : FlMoves fl c a) (hc : 0 < c) (hsq : IsSqrt sq)
    {cfg cfg' : UMDAcCfg K} (h : SameCont c a π cfg cfg')
    {e e' : Eda (List K) (UniGauss K) (Draws K)} {b b' : UniGauss K}
    (he : UMDAc fl sq cfg = .ok (e, b)) (he' : UMDAc fl sq cfg' = .ok (e', b'))
    {ρ ρ' : Rand (Draws K)} (hρ : SameRand c π cfg'.base.nVars ρ ρ') :
    EdaSim (Moved cfg.base.nVars (recoord c a π cfg'.base.nVars)) cfg.base.nVars cfg'.base.nVars
      (GaussRel0 c cfg.base.nVars cfg'.base.nVars cfg.lowerFactor)
      (GaussRel c a π cfg.base.nVars cfg'.base.nVars cfg.lowerFactor (c * cfg.lowerFactor)) e e' ρ ρ' ∧
      GaussRel0 c cfg.base.nVars cfg'.base.nVars cfg.lowerFactor b b' := by
  obtain ⟨h1, h2, rfl⟩ := mkCont_ok he
  obtain ⟨h1', h2', rfl⟩ := mkCont_ok he'
  refine ⟨?_, rfl, rfl, rfl, h.factor⟩
  refine mk_sim hc h.base (mkEda_ok h1) (mkEda_ok h1') hρ.noise
    (contInit_sim hfl hc h h2 hρ.init) ?_ ?_ ?_
  · intro t m m' g g' _ _ hm hg
    exact gauss_learn hsq hc h.base.vars h.base.nonempty hm hg
  · intro t m m' hm
    simp only [h.base.sizeGen]
    exact gauss_sample hm h.base.vars (hρ.sample t) _
  · intro m m' hm
    exact ⟨hm.good.n, hm.good.lb, hm.good'.n, hm.good'.lb⟩

theorem PBIL_sim {fl sq : K → K} (hfl : FlMoves fl c a) (hc : 0 < c) (hsq : IsSqrt sq)
    {cfg cfg' : UMDAcCfg K} (h : SameCont c a π cfg cfg')
    {e e' : Eda (List K) (UniGauss K) (Draws K)} {b b' : UniGauss K}
    (he : PBIL fl sq cfg = .ok (e, b)) (he' : PBIL fl sq cfg' = .ok (e', b'))
    {ρ ρ' : Rand (Draws K)} (hρ : SameRand c π cfg'.base.nVars ρ ρ') :
    EdaSim (Moved cfg.base.nVars (recoord c a π cfg'.base.nVars)) cfg.base.nVars cfg'.base.nVars
      (GaussRel0 c cfg.base.nVars cfg'.base.nVars cfg.lowerFactor)
      (GaussRel c a π cfg.base.nVars cfg'.base.nVars cfg.lowerFactor (c * cfg.lowerFactor)) e e' ρ ρ' ∧
      GaussRel0 c cfg.base.nVars cfg'.base.nVars cfg.lowerFactor b b' := by
  obtain ⟨h1, h2, rfl⟩ := mkCont_ok he
  obtain ⟨h1', h2', rfl⟩ := mkCont_ok he'
  refine ⟨?_, rfl, rfl, rfl, h.factor⟩
  have hb : SameBase c a π { cfg.base with alpha := 1 } { cfg'.base with alpha := 1 } :=
    ⟨h.base.sizeGen, h.base.maxIter, h.base.deadIter, rfl, h.base.eliteFactor, h.base.parallel,
      h.base.noise, h.base.noiseNonneg, h.base.vars, h.base.nonempty, h.base.data, h.base.data'⟩
  refine mk_sim hc hb (mkEda_ok h1) (mkEda_ok h1') hρ.noise
    (contInit_sim hfl hc h h2 hρ.init) ?_ ?_ ?_
  · intro t m m' g g' _ _ hm hg
    simp only [h.base.alpha]
    exact gauss_learnAdapt hsq hc h.base.vars h.base.nonempty hm hg
  · intro t m m' hm
    simp only [h.base.sizeGen]
    exact gauss_sample hm h.base.vars (hρ.sample t) _
  · intro m m' hm
    exact ⟨hm.good.n, hm.good.lb, hm.good'.n, hm.good'.lb⟩

/-! ### EMNA: translations -/

theorem covEntry_shift {rows : List (List K)} (hne : rows ≠ []) {i j : ℕ} (hi : i < n) (hj : j < n) :
    covEntry (rows.map (recoord 1 a id n)) i j = covEntry rows i j := by
  unfold covEntry
  rw [colMean_recoord hne hi, colMean_recoord hne hj, foldl_add_map, foldl_add_map, List.map_map,
    List.length_map]
  congr 3
  apply List.map_congr_left
  intro r _
  simp only [Function.comp, recoord_getD r hi, recoord_getD r hj, id]
  ring

/-- Models before learning. -/
def MultiRel0 (n : ℕ) (m m' : MultiGauss K) : Prop :=
  m.n = n ∧ m'.n = n ∧ m'.lb = m.lb ∧ m'.ub = m.ub

/-- Models after learning. -/
structure MultiRel (a : ℕ → K) (n : ℕ) (m m' : MultiGauss K) : Prop where
  good : m.Good n
  good' : m'.Good n
  lb : m'.lb = m.lb
  ub : m'.ub = m.ub
  means : m'.means = recoord 1 a id n m.means
  cov : m'.cov = m.cov

theorem multi_sample {fac : List (List K) → List (List K)} {m m' : MultiGauss K}
    (h : MultiRel a n m m') {ω ω' : Draws K} (hω : SameDraws 1 id n ω ω') (size : ℤ) :
    ExRel (GenRel (Moved n (recoord 1 a id n)) n n) (m.sample fac size ω) (m'.sample fac size ω') := by
  rcases lt_or_ge size 0 with hs | hs
  · unfold MultiGauss.sample
    rw [if_pos hs, if_pos hs]
    exact .error _
  · rw [MultiGauss.sample_eq h.good hs, MultiGauss.sample_eq h.good' hs]
    refine .ok ⟨rfl, rfl, rfl, moved_range _ (fun i => ⟨by simp, ?_⟩)⟩
    refine (recoord_congr ?_).symm
    intro j hj
    have hs : ((List.range n).map (fun k => ω' i k * entry (fac m'.cov) k j)) =
        (List.range n).map (fun k => ω i k * entry (fac m.cov) k j) := by
      apply List.map_congr_left
      intro k hk
      rw [hω i k (List.mem_range.1 hk), h.cov]
      simp
    rw [id, getD_range_map hj, h.means, recoord_getD _ hj, hs]
    simp only [id]
    ring

theorem multi_learn {sq : K → K} (hsq : IsSqrt sq) {m m' : MultiGauss K} (h : MultiRel0 n m m')
    {g g' : Gen (List K)} (hg : GenRel (Moved n (recoord 1 a id n)) n n g g') :
    ExRel (MultiRel a n) (m.learn sq g) (m'.learn sq g') := by
  obtain ⟨h1, h2, h3, h4⟩ := h
  obtain ⟨hr, hrect⟩ := moved_rows hg.rows
  unfold MultiGauss.learn
  rw [hg.cols, hg.cols', h1, h2, if_neg (lt_irrefl n), if_neg (lt_irrefl n), hr, List.length_map]
  by_cases hn1 : n = 1
  · rw [if_pos hn1, if_pos hn1]; exact .error _
  rw [if_neg hn1, if_neg hn1]
  by_cases hn2 : n = 0 ∨ g.rows.length < 2
  · rw [if_pos hn2, if_pos hn2]; exact .error _
  rw [if_neg hn2, if_neg hn2]
  have hne : g.rows ≠ [] := by
    intro h0; rw [h0] at hn2; simp at hn2
  refine .ok ⟨⟨rfl, by simp, by simp, ?_⟩, ⟨rfl, by simp, by simp, ?_⟩, h3, h4, ?_, ?_⟩
  · intro r hr; obtain ⟨i, _, rfl⟩ := List.mem_map.1 hr; simp
  · intro r hr; obtain ⟨i, _, rfl⟩ := List.mem_map.1 hr; simp
  · refine (recoord_congr ?_).symm
    intro j hj
    rw [id, getD_range_map hj, colMean_recoord hne hj, id]
  · simp only
    apply List.map_congr_left
    intro i hi
    apply List.map_congr_left
    intro j hj
    rw [covEntry_shift hne (List.mem_range.1 hi) (List.mem_range.1 hj),
      colStd_recoord hsq one_pos hne (List.mem_range.1 hi), h3, h4, one_mul, id]

theorem EMNA_sim {sq : K → K} {fac : List (List K) → List (List K)} (hsq : IsSqrt sq)
    {cfg cfg' : EMNACfg K} (hb : SameBase 1 a id cfg.base cfg'.base)
    (hn : cfg'.base.nVars = cfg.base.nVars) (hl : cfg'.lowerFactor = cfg.lowerFactor)
    (hu : cfg'.upperFactor = cfg.upperFactor)
    (hbd : cfg.base.initData ≠ none ∨ SameBounds 1 a id cfg.base.nVars cfg.base.nVars
      cfg.lower cfg.upper cfg'.lower cfg'.upper)
    {e e' : Eda (List K) (MultiGauss K) (Draws K)} {b b' : MultiGauss K}
    (he : EMNA id sq fac cfg = .ok (e, b)) (he' : EMNA id sq fac cfg' = .ok (e', b'))
    {ρ ρ' : Rand (Draws K)} (hρ : SameRand 1 id cfg.base.nVars ρ ρ') :
    EdaSim (Moved cfg.base.nVars (recoord 1 a id cfg.base.nVars)) cfg.base.nVars cfg.base.nVars
      (MultiRel0 cfg.base.nVars) (MultiRel a cfg.base.nVars) e e' ρ ρ' ∧
      MultiRel0 cfg.base.nVars b b' := by
  obtain ⟨h1, h2, rfl⟩ := EMNA_ok he
  obtain ⟨h1', h2', rfl⟩ := EMNA_ok he'
  refine ⟨?_, rfl, hn, hl, hu⟩
  have := mk_sim (rm0 := MultiRel0 cfg.base.nVars) (rm := MultiRel a cfg.base.nVars) one_pos hb
    (mkEda_ok h1) (mkEda_ok h1') (hn ▸ hρ.noise) (ρ := ρ) (ρ' := ρ') ?_ ?_ ?_ ?_
  · rw [hn] at this; exact this
  · intro hd
    rcases hbd with hbd | hbd
    · exact absurd hd hbd
    · obtain ⟨l, u, b1, b2, b3, b4⟩ := id hbd
      rw [hn]
      have e1 : ∀ {lo up : Bound K}, lo.check cfg.base.nVars = true → up.check cfg.base.nVars = true →
          ∀ ω, uniformInitSample id cfg.base.nVars lo up cfg.base.sizeGen ω =
            UniformInit.sample id ⟨cfg.base.nVars, lo, up⟩ cfg.base.sizeGen ω := by
        intro lo up q1 q2 ω
        simp [uniformInitSample, UniformInit.new, q1, q2]
      rw [hb.sizeGen, e1 b1.facts.2.1 b2.facts.2.1, e1 b3.facts.2.1 b4.facts.2.1]
      exact uniform_sample (flMoves_id 1 a) (fun j hj => hj) hbd hρ.init _
  · intro t m m' g g' _ _ hm hg
    rw [hn] at hg
    exact multi_learn hsq hm hg
  · intro t m m' hm
    simp only [hb.sizeGen, hn]
    exact multi_sample hm (hρ.sample t) _
  · intro m m' hm
    exact ⟨hm.good.n, hm.good'.n, hm.lb, hm.ub⟩

/-! ### UMDAd: reordering the variables -/

/-- Models before learning. -/
def BinRel0 (n n' : ℕ) (m m' : UniBin K) : Prop :=
  m.n = n ∧ m'.n = n' ∧ m'.lb = m.lb ∧ m'.ub = m.ub

/-- Models after learning. -/
structure BinRel (π : ℕ → ℕ) (n n' : ℕ) (m m' : UniBin K) : Prop where
  key : BinRel0 n n' m m'
  len : m.p.length = n
  p : m'.p = recoord 1 0 π n' m.p

theorem bin_sample {m m' : UniBin K} (h : BinRel π n n' m m') (hπ : ∀ j < n', π j < n)
    {ω ω' : Draws K} (hω : SameDraws 1 π n' ω ω') (size : ℤ) :
    ExRel (GenRel (Moved n (recoord 1 0 π n')) n n') (m.sample size ω) (m'.sample size ω') := by
  obtain ⟨h1, h2, _, _⟩ := h.key
  rcases lt_or_ge size 0 with hs | hs
  · unfold UniBin.sample
    rw [if_pos hs, if_pos hs]
    exact .error _
  · have hp' : m'.p.length = n' := by rw [h.p]; exact recoord_length _
    rw [UniBin.sample_of_length (h.len.trans h1.symm) hs,
      UniBin.sample_of_length (hp'.trans h2.symm) hs]
    refine .ok ⟨rfl, h1, h2, moved_range _ (fun i => ⟨by rw [binRow_length, h1], ?_⟩)⟩
    unfold binRow
    rw [h2]
    refine (recoord_congr ?_).symm
    intro j hj
    have hpj := hπ j hj
    have e1 : (if n' = 1 then 0 else j) = j := by split <;> omega
    have e2 : (if n = 1 then 0 else π j) = π j := by split <;> omega
    rw [h1, getD_range_map hpj, hp', h.len, e1, e2, h.p, recoord_getD _ hj, hω i j hj]
    simp

theorem bin_learn {fl : K → K} {m m' : UniBin K} (h : BinRel0 n n' m m') (hπ : ∀ j < n', π j < n)
    (hlu : m.lb ≤ m.ub) {g g' : Gen (List K)} (hg : GenRel (Moved n (recoord 1 0 π n')) n n' g g') :
    ExRel (BinRel π n n') (m.learn fl g.rows) (m'.learn fl g'.rows) := by
  obtain ⟨hr, hrect⟩ := moved_rows hg.rows
  rw [hr]
  rcases hg0 : g.rows with _ | ⟨r, rs⟩
  · exact .error _
  rw [hg0] at hrect
  obtain ⟨h1, h2, h3, h4⟩ := h
  have hc := colSums_spec (data := r :: rs) (by simp) hrect
  have hrect' : Rect n' ((r :: rs).map (recoord (1 : K) 0 π n')) := by
    intro x hx
    obtain ⟨y, _, rfl⟩ := List.mem_map.1 hx
    exact recoord_length _
  have hc' := colSums_spec (data := (r :: rs).map (recoord (1 : K) 0 π n')) (by simp) hrect'
  have hlen : (((r :: rs).map (recoord (1 : K) 0 π n')).length : K) = ((r :: rs).length : K) := by
    rw [List.length_map]
  rw [List.map_cons] at hc' hlen ⊢
  unfold UniBin.learn
  simp only
  rw [hlen]
  refine .ok ⟨⟨h1, h2, h3, h4⟩, by simp [clipProbs_length, hc.1], ?_⟩
  simp only
  apply List.ext_getElem?
  intro j
  rw [clipProbs_getElem? _ _ _ _ (by rw [h3, h4]; exact hlu), List.getElem?_map, h3, h4]
  rcases Nat.lt_or_ge j n' with hj | hj
  · have hpj := hπ j hj
    have e1 : (colSums (recoord 1 0 π n' r :: rs.map (recoord 1 0 π n')))[j]? =
        some (col (r :: rs) (π j)).sum := by
      have := hc'.2 j
      rw [← List.map_cons (f := recoord (1 : K) 0 π n'), col_recoord _ hj] at this
      rw [List.getElem?_eq_getElem (by rw [hc'.1]; exact hj)]
      rw [List.getD, List.getElem?_eq_getElem (by rw [List.map_cons, hc'.1]; exact hj)] at this
      simpa using this
    have e2 : (colSums (r :: rs))[π j]? = some (col (r :: rs) (π j)).sum := by
      have := hc.2 (π j)
      rw [List.getElem?_eq_getElem (by rw [hc.1]; exact hpj)]
      rw [List.getD, List.getElem?_eq_getElem (by rw [hc.1]; exact hpj)] at this
      simpa using this
    rw [e1]
    simp only [recoord, List.getElem?_map, List.getElem?_range hj, Option.map_some, List.getD,
      clipProbs_getElem? _ _ _ _ hlu, e2, Option.getD_some]
    simp
  · rw [List.getElem?_eq_none (by rw [hc'.1]; exact hj),
      List.getElem?_eq_none (by rw [recoord_length]; exact hj)]
    rfl

theorem UMDAd_sim {fl : K → K} {cfg cfg' : UMDAdCfg K} (hb : SameBase 1 0 π cfg.base cfg'.base)
    (hl : cfg'.lower = cfg.lower) (hu : cfg'.upper = cfg.upper)
    (hv : ∀ v, cfg.vector = some v → v.length = cfg.base.nVars)
    (hv' : cfg'.vector = cfg.vector.map (recoord 1 0 π cfg'.base.nVars))
    {e e' : Eda (List K) (UniBin K) (Draws K)} {b b' : UniBin K}
    (he : UMDAd fl cfg = .ok (e, b)) (he' : UMDAd fl cfg' = .ok (e', b'))
    {ρ ρ' : Rand (Draws K)} (hρ : SameRand 1 π cfg'.base.nVars ρ ρ') :
    EdaSim (Moved cfg.base.nVars (recoord 1 0 π cfg'.base.nVars)) cfg.base.nVars cfg'.base.nVars
      (fun m m' => BinRel0 cfg.base.nVars cfg'.base.nVars m m' ∧ m.lb ≤ m.ub)
      (fun m m' => BinRel π cfg.base.nVars cfg'.base.nVars m m' ∧ m.lb ≤ m.ub) e e' ρ ρ' ∧
      (BinRel0 cfg.base.nVars cfg'.base.nVars b b' ∧ b.lb ≤ b.ub) := by
  obtain ⟨h1, h2, rfl⟩ := UMDAd_ok he
  obtain ⟨h1', h2', rfl⟩ := UMDAd_ok he'
  refine ⟨?_, ⟨rfl, rfl, hl, hu⟩, h2.le⟩
  have hb0 : SameBase 1 0 π { cfg.base with wNoise := some 0 } { cfg'.base with wNoise := some 0 } :=
    ⟨hb.sizeGen, hb.maxIter, hb.deadIter, hb.alpha, hb.eliteFactor, hb.parallel, by simp,
      by simp, hb.vars, hb.nonempty, hb.data, hb.data'⟩
  have hn : 0 < cfg.base.nVars := lt_of_le_of_lt (Nat.zero_le _) (hb.vars 0 hb.nonempty)
  refine mk_sim one_pos hb0 h1 h1' hρ.noise ?_ ?_ ?_ ?_
  · intro _
    simp only [hb.sizeGen]
    refine bin_sample (m := umdadInit cfg) (m' := umdadInit cfg') (n := cfg.base.nVars)
      (n' := cfg'.base.nVars) ⟨⟨rfl, rfl, rfl, rfl⟩, ?_, ?_⟩ hb.vars hρ.init _
    · unfold umdadInit uniBinInit
      cases hx : cfg.vector with
      | none => simp
      | some v =>
        have := hv v hx
        simp only
        rw [if_neg (by omega), this]
    · unfold umdadInit uniBinInit
      rw [hv']
      have hn' := hb.nonempty
      cases hx : cfg.vector with
      | none =>
        simp only [Option.map_none, List.length_replicate, if_neg hn.ne', if_neg hn'.ne']
        apply List.ext_getElem?
        intro j
        rcases Nat.lt_or_ge j cfg'.base.nVars with hj | hj
        · simp [recoord, hj, hb.vars j hj, List.getElem?_replicate, List.getD]
        · rw [List.getElem?_eq_none (by simpa using hj),
            List.getElem?_eq_none (by rw [recoord_length]; exact hj)]
      | some v =>
        have := hv v hx
        simp only [Option.map_some]
        rw [if_neg (by rw [recoord_length]; omega), if_neg (by omega)]
  · intro t m m' g g' _ _ hm hg
    have hk := bin_learn (fl := fl) hm.1 hb.vars hm.2 hg
    have hkey : ∀ x, m.learn fl g.rows = .ok x → x.lb ≤ x.ub := by
      intro x hx
      obtain ⟨_, _, q1, q2, _⟩ := UniBin.learn_ok hx
      rw [q1, q2]; exact hm.2
    rcases hx : m.learn fl g.rows with err | x <;> rcases hx' : m'.learn fl g'.rows with err' | x'
    · rw [hx, hx'] at hk; cases hk; exact .error _
    · rw [hx, hx'] at hk; cases hk
    · rw [hx, hx'] at hk; cases hk
    · rw [hx, hx'] at hk; obtain ⟨hk⟩ := hk; exact .ok ⟨hk, hkey x hx⟩
  · intro t m m' hm
    simp only [hb.sizeGen]
    exact bin_sample hm.1 hb.vars (hρ.sample t) _
  · intro m m' hm
    exact ⟨hm.1.key, hm.2⟩

end algos

end Verif
