/-
C104: the generations of `UnivariateKEDA` can reach every region, and with probability 1 the model can be learned again.
-/
import Verif.Lemmas.EmnaLeave
import Verif.Lemmas.KedaRun

set_option linter.unusedSectionVars false

namespace Verif

open PyCost Spec MeasureTheory ProbabilityTheory

namespace Spec

/-- The laws of the numbers that `UniKDE.sample` draws for one individual of `n` variables: `n` standard normal numbers
and a number from `[0, 1)`. -/
noncomputable def kdeLaw (n j : ℕ) : Measure ℝ := if j < n then gaussianReal 0 1 else unif01

/-- The configuration with another `max_iter`. -/
def kedaMax (cfg : KedaCfg ℝ) (k : ℤ) : KedaCfg ℝ := { cfg with base := { cfg.base with maxIter := k } }

end Spec

instance (n j : ℕ) : IsProbabilityMeasure (kdeLaw n j) := by
  unfold kdeLaw
  split
  · infer_instance
  · exact ⟨by simp [unif01]⟩

theorem kdeLaw_ac {n j : ℕ} (h : j < n) : kdeLaw n j ≪ volume := by
  rw [kdeLaw, if_pos h]
  exact gaussianReal_absolutelyContinuous 0 one_ne_zero

theorem svdRoot_det {n : ℕ} {c a : ℕ → ℕ → ℝ} (hr : IsSvdRoot n c a) (hpd : PD n c) : IsUnit (toMat n a).det := by
  have hc : (toMat n c).det ≠ 0 := by
    intro h0
    obtain ⟨v, hv, hz⟩ := Matrix.exists_mulVec_eq_zero_iff.2 h0
    obtain ⟨i, hi⟩ := Function.ne_iff.1 hv
    have := hpd (fun k => if h : k < n then v ⟨k, h⟩ else 0) ⟨i, i.2, by simpa using hi⟩
    rw [Finset.sum_range] at this
    refine this.ne' (Finset.sum_eq_zero fun k _ => ?_)
    have hk := congrFun hz k
    rw [Finset.sum_range]
    simp only [Fin.is_lt, dite_true, Fin.eta]
    calc ∑ l : Fin n, v k * c k l * v l = v k * ∑ l : Fin n, c k l * v l := by
          rw [Finset.mul_sum]; exact Finset.sum_congr rfl fun l _ => by ring
      _ = v k * 0 := by
          congr 1
      _ = 0 := mul_zero _
  have h2 := congrArg Matrix.det (svdRoot_gram_sq hr)
  simp only [Matrix.det_mul, Matrix.det_transpose] at h2
  rw [isUnit_iff_ne_zero]
  intro h0
  rw [h0] at h2
  simp at h2
  exact hc h2

section model
variable {isPD : List (List ℝ) → Bool} {h2 : ℕ → ℕ → ℝ} {fac : List (List ℝ) → List (List ℝ)}

/-- What a learned kernel density samples. -/
theorem UniKDE.learn_sample {b b' : UniKDE ℝ} {g : Gen (List ℝ)} {n : ℕ} (h : b.learn isPD h2 g = .ok b')
    (hp : PosDefTest n isPD) (hc : g.cols = n) (hh : ∀ N d, 0 < N → 0 < h2 N d) (hfac : Decomposes n fac) :
    ∃ (A : Matrix (Fin n) (Fin n) ℝ) (N : ℕ) (pt : ℕ → ℕ → ℝ), IsUnit A.det ∧ 0 < N ∧
      ∀ size z out, b'.sample fac size z = .ok out → out.cols = n ∧ out.rows.length = size.toNat ∧
        (∀ r ∈ out.rows, r.length = n) ∧ ∀ i < size.toNat, ∀ j : Fin n,
          (out.rows.getD i []).getD j 0 = pt (pick N (z i n)) j + ∑ k : Fin n, z i k * A k j := by
  obtain ⟨hr, _, hpd, hk⟩ := UniKDE.learn_ok h
  subst hc
  have hsym : ∀ i < g.cols, ∀ j < g.cols, covEntry g.rows i j = covEntry g.rows j i := by
    intro i _ j _; rw [covEntry_eq, covEntry_eq, covariance_comm]
  have hpd := (hp _ hsym).1 hpd
  set c : List (List ℝ) := (List.range g.cols).map (fun i => (List.range g.cols).map (fun j =>
      covEntry g.rows i j * h2 g.rows.length g.cols)) with hcd
  have hent : ∀ i < g.cols, ∀ j < g.cols, entry c i j = covEntry g.rows i j * h2 g.rows.length g.cols := by
    intro i hi j hj
    exact entry_map (F := fun i j => covEntry g.rows i j * h2 g.rows.length g.cols) hi hj
  have hpd' : PD g.cols (entry c) := by
    intro x hx
    have h0 := mul_pos (hpd x hx) (hh g.rows.length g.cols (by omega))
    refine h0.trans_eq ?_
    rw [Finset.sum_mul]
    refine Finset.sum_congr rfl fun i hi => ?_
    rw [Finset.sum_mul]
    refine Finset.sum_congr rfl fun j hj => ?_
    rw [hent i (Finset.mem_range.1 hi) j (Finset.mem_range.1 hj)]
    ring
  have hroot := hfac c fun i hi j hj => by rw [hent i hi j hj, hent j hj i hi, hsym i hi j hj]
  refine ⟨toMat g.cols (entry (fac c)), g.rows.length, fun k j => (g.rows.getD k []).getD j 0, svdRoot_det hroot hpd',
    by omega, fun size z out ho => ?_⟩
  have hlen : c.length = g.cols := by simp [hcd]
  unfold UniKDE.sample at ho
  rw [hk] at ho
  dsimp only at ho
  split at ho
  · simp at ho
  rw [hlen] at ho
  rw [← Except.ok.inj ho]
  refine ⟨rfl, by simp, ?_, fun i hi j => ?_⟩
  · intro r hr
    obtain ⟨i, _, rfl⟩ := List.mem_map.1 hr
    simp [Kde.row, hlen]
  · rw [List.getD_eq_getElem?_getD, List.getD_eq_getElem?_getD, List.getElem?_map, List.getElem?_range hi]
    simp only [Option.map_some, Option.getD_some, Kde.row, hlen]
    rw [List.getElem?_map, List.getElem?_range j.2]
    simp only [Option.map_some, Option.getD_some]
    congr 1
    have hsum : ((List.range g.cols).map (fun k => z i k * entry (fac c) k j)).sum =
      ∑ k ∈ Finset.range g.cols, z i k * entry (fac c) k j := rfl
    rw [hsum, Finset.sum_range]
    rfl

end model

section run
variable {C : Type} [PyCost C] {env : Env C} {f : ℕ → List ℝ → C} {ftol : C} {ρ : Rand (Draws ℝ)}
variable {fl : ℝ → ℝ} {isPD : List (List ℝ) → Bool} {h2 : ℕ → ℕ → ℝ}
variable {fac : List (List ℝ) → List (List ℝ)} {cfg : KedaCfg ℝ}
variable {e : Eda (List ℝ) (UniKDE ℝ) (Draws ℝ)} {b : UniKDE ℝ}

/-- The generations of a run have `n_variables` columns. -/
theorem keda_cols (h : UnivariateKEDA fl isPD h2 fac cfg = .ok (e, b)) {t : ℕ} {s : St (List ℝ) C (UniKDE ℝ)}
    (hvis : Visited env e f ftol b ρ t s) : s.gen.cols = cfg.base.nVars := by
  have hm := mkEda_ok (UnivariateKEDA_ok h).1
  refine visited_inv (fun s => s.gen.cols = cfg.base.nVars) ?_ ?_ hvis
  · intro s0 h0
    obtain ⟨_, _, _, _, _, hs⟩ := start_ok h0
    have hi := hs.init
    rcases hd : cfg.base.initData with _ | d
    · rw [hm.initNone hd] at hi
      exact (uniformInitSample_shape hi).2.1
    · obtain ⟨h1, h2⟩ := hm.initSome d hd
      rw [h2] at hi
      rw [← Except.ok.inj hi]; exact h1
  · intro noise t s s' b' hc hn hst
    obtain ⟨s1, noisy, _, _, _, _, hs⟩ := step_ok hst
    rw [hm.mkNoise] at hn
    obtain ⟨nz, hmk, rfl⟩ : ∃ nz, mkWhiteNoise cfg.base.noiseAttr (selLen fl cfg.base.sizeGen cfg.base.alpha)
        cfg.base.nVars ρ.noise = .ok nz ∧ addNoise nz = noise := by
      split at hn
      · simp at hn
      · rename_i nz hmk
        exact ⟨nz, hmk, Except.ok.inj hn⟩
    obtain ⟨_, hsh⟩ := addNoise_shift hmk
    have hu := hs.update
    rw [hm.updatePm] at hu
    obtain ⟨_, _, _, hk⟩ := UniKDE.learn_ok hu
    have hsm := hs.sample
    rw [hm.sample] at hsm
    dsimp only at hsm
    unfold UniKDE.sample at hsm
    rw [hk] at hsm
    dsimp only at hsm
    split at hsm
    · simp at hsm
    rw [← Except.ok.inj hsm]
    simp only [List.length_map, List.length_range]
    rw [(hsh _ _ hs.noise).1, (truncation_shape hs.trunc).2.1, hc]

/-- A run whose passes can all learn returns a result. -/
theorem keda_returns [LawfulCost C] [UniformCost C] (hv : env.Valid) {m : ℕ}
    (hval : UniformValid env.cpu fl cfg.base cfg.lower cfg.upper m) (hn : 1 ≤ cfg.base.nVars)
    (hm : 2 ≤ m) (hsel : 2 ≤ selLen fl cfg.base.sizeGen cfg.base.alpha)
    (hnum : ∀ k r, IsNum (f k r)) (he : UnivariateKEDA fl isPD h2 fac cfg = .ok (e, b))
    (hlearn : ∀ t s noise s1 noisy, Visited env e f ftol b ρ t s → (t : ℤ) < e.maxIter → e.mkNoise ρ.noise = .ok noise →
      truncation env e s = .ok s1 → noise s1.gen = .ok noisy → ∃ pm', s1.pm.learn isPD h2 noisy = .ok pm') :
    ∃ res s, minimize env e f ftol b ρ = .ok (res, s) := by
  obtain ⟨res, s, h⟩ := UnivariateKEDA_unguarded (f := f) (ftol := ftol) (ρ := ρ) hv hval hn hm hsel hnum he
  refine ⟨res, s, ?_⟩
  rw [← h]
  symm
  refine minimize_congr_learn fun t s noise s1 noisy h1 h2' h3 h4 h5 => ?_
  obtain ⟨pm', hpm⟩ := hlearn t s noise s1 noisy h1 h2' h3 h4 h5
  rw [(mkEda_ok (UnivariateKEDA_ok he).1).updatePm]
  rcases UniKDE.learn_guard (isPD := isPD) (h2 := h2) s1.pm noisy with h | ⟨err, _, h⟩
  · exact h.symm
  · rw [hpm] at h; simp at h

/-- The object with another `max_iter`. -/
theorem keda_longer (he : UnivariateKEDA fl isPD h2 fac cfg = .ok (e, b)) {k : ℤ} (hk : cfg.base.deadIter ≤ k) :
    UnivariateKEDA fl isPD h2 fac (kedaMax cfg k) = .ok ({ e with maxIter := k }, b) := by
  obtain ⟨hmk, ⟨u, hu⟩, rfl⟩ := UnivariateKEDA_ok he
  have : mkEda fl (kedaMax cfg k).base (uniformInitSample fl cfg.base.nVars cfg.lower cfg.upper cfg.base.sizeGen)
      (fun b g _ _ => UniKDE.learn isPD h2 b g) (fun b ω => UniKDE.sample fac b cfg.base.sizeGen ω) =
      .ok { e with maxIter := k } := by
    have hd := (mkEda_ok hmk).dead
    unfold mkEda mkEdaG at hmk ⊢
    rw [if_neg (not_not.2 hd)] at hmk
    rw [if_neg (by simpa [kedaMax] using hk)]
    simp only [kedaMax] at hmk ⊢
    split at hmk
    · rename_i h0
      rw [h0]
      rw [← Except.ok.inj hmk]
      rfl
    · rename_i d h0
      rw [h0]
      split at hmk
      · rename_i hc
        refine (if_pos (c := d.cols = cfg.base.nVars) hc).trans ?_
        rw [← Except.ok.inj hmk]
        rfl
      · simp at hmk
  unfold UnivariateKEDA
  have hb : (kedaMax cfg k).base.nVars = cfg.base.nVars := rfl
  have hl : (kedaMax cfg k).lower = cfg.lower := rfl
  have hu' : (kedaMax cfg k).upper = cfg.upper := rfl
  have hs : (kedaMax cfg k).base.sizeGen = cfg.base.sizeGen := rfl
  rw [hb, hl, hu', hs, this]
  dsimp only
  rw [hu]

theorem visited_maxIter {k : ℤ} {t : ℕ} {s : St (List ℝ) C (UniKDE ℝ)}
    (h : Visited env { e with maxIter := k } f ftol b ρ t s) : Visited env e f ftol b ρ t s := by
  induction h with
  | first h0 => exact .first h0
  | next _ hn hst ih => exact .next ih hn hst

/-- **C104** `UnivariateKEDA` with a number of selected individuals that exceeds the number of individuals in the elite
by more than `n_variables`: if a run with `max_iter = k + 1` returned a result, then for almost all draws of the last
generation the run with `max_iter = k + 2` returns a result, too.  So with probability 1 the covariance matrix is not
singular. -/
theorem C104_next [LawfulCost C] [UniformCost C] (hv : env.Valid) {m : ℕ}
    (hval : UniformValid env.cpu fl cfg.base cfg.lower cfg.upper m) (hn : 1 ≤ cfg.base.nVars) (hm : 2 ≤ m)
    (hnum : ∀ k r, IsNum (f k r)) (hp : PosDefTest cfg.base.nVars isPD) (hh : ∀ N d, 0 < N → 0 < h2 N d)
    (hfac : Decomposes cfg.base.nVars fac) (hel : 0 ≤ selLen fl cfg.base.sizeGen cfg.base.eliteFactor)
    (hsel : cfg.base.nVars + selLen fl cfg.base.sizeGen cfg.base.eliteFactor < selLen fl cfg.base.sizeGen cfg.base.alpha)
    (hle : selLen fl cfg.base.sizeGen cfg.base.alpha ≤ cfg.base.sizeGen) {k : ℕ} (hk : 1 ≤ k)
    (hmax : cfg.base.maxIter = k + 1) (he : UnivariateKEDA fl isPD h2 fac cfg = .ok (e, b))
    {r : EdaResult (List ℝ) C × St (List ℝ) C (UniKDE ℝ)} (hrun : minimize env e f ftol b ρ = .ok r) :
    ∃ e', UnivariateKEDA fl isPD h2 fac (kedaMax cfg (k + 2)) = .ok (e', b) ∧
      ∀ᵐ z ∂drawsLaw (kdeLaw cfg.base.nVars), ∀ ω : ℕ → Draws ℝ, (∀ u < k, ω u = ρ.sample u) → ω k = z →
        ∃ r', minimize env e' f ftol b { ρ with sample := ω } = .ok r' := by
  have hmk := mkEda_ok (UnivariateKEDA_ok he).1
  have hd : cfg.base.deadIter ≤ k + 2 := by have := hmk.dead; omega
  have he' := keda_longer he hd
  refine ⟨_, he', ?_⟩
  have hval' : UniformValid env.cpu fl (kedaMax cfg (k + 2)).base (kedaMax cfg (k + 2)).lower
      (kedaMax cfg (k + 2)).upper m :=
    { dead := hd, size := hval.size, pos := hval.pos, trunc := hval.trunc, cpu := hval.cpu
      noise := hval.noise, lower := hval.lower, upper := hval.upper
      data := fun d hd => let h := hval.data d hd; ⟨⟨h.1.cols, h.1.rect, h.1.dt, h.1.fl⟩, h.2⟩ }
  obtain ⟨res, s⟩ := r
  obtain ⟨s0, noise, h0, hnz, hl, _⟩ := minimize_ok hrun
  have hpasses : ((e.maxIter - 1).toNat) = k := by rw [hmk.maxIter, hmax]; omega
  rw [hpasses] at hl
  have hnz' := hnz
  rw [hmk.mkNoise] at hnz'
  obtain ⟨nz, hmkn, rfl⟩ : ∃ nz, mkWhiteNoise cfg.base.noiseAttr (selLen fl cfg.base.sizeGen cfg.base.alpha)
      cfg.base.nVars ρ.noise = .ok nz ∧ addNoise nz = noise := by
    split at hnz'
    · simp at hnz'
    · rename_i nz hmk
      exact ⟨nz, hmk, Except.ok.inj hnz'⟩
  obtain ⟨sh, hsh⟩ := addNoise_shift hmkn
  -- the last generation
  have hlast : ∀ᵐ z ∂drawsLaw (kdeLaw cfg.base.nVars), ∀ s1, Visited env e f ftol b ρ k s1 →
      ∀ (ρ' : Rand (Draws ℝ)), ρ'.sample k = z → ρ'.learn = ρ.learn → ∀ s2 fl', step env e f ftol ρ' (addNoise nz) k s1 = .ok (s2, fl') →
        ∀ s3 noisy, truncation env e s2 = .ok s3 → addNoise nz s3.gen = .ok noisy →
          ∃ pm', s3.pm.learn isPD h2 noisy = .ok pm' := by
    by_cases hex : ∃ s1, Visited env e f ftol b ρ k s1
    swap
    · exact Filter.Eventually.of_forall fun z s1 h1 => absurd ⟨s1, h1⟩ hex
    obtain ⟨s1, hvis⟩ := hex
    obtain ⟨s2, fl2, hst, _⟩ := loop_pass_ok (addNoise nz) hnz k 1 s0 s (.first h0) hl k s1 hvis hk (by omega)
    obtain ⟨t1, noisy1, _, _, _, _, hs⟩ := step_ok hst
    have hu := hs.update
    rw [hmk.updatePm] at hu
    have hu : s1.pm.learn isPD h2 noisy1 = .ok s2.pm := hu
    have hc1 : noisy1.cols = cfg.base.nVars := by
      rw [(hsh _ _ hs.noise).1, (truncation_shape hs.trunc).2.1, keda_cols he hvis]
    obtain ⟨A, N, pt, hA, hN, hsamp⟩ := UniKDE.learn_sample hu hp hc1 hh hfac
    have hgp : ∀ᵐ z ∂drawsLaw (kdeLaw cfg.base.nVars), ∀ idx κ pos : Fin (cfg.base.nVars + 1) → ℕ,
        Function.Injective idx → GeneralPosition fun a (j : Fin cfg.base.nVars) =>
          pt (κ a) j + sh (pos a) j + ∑ i : Fin cfg.base.nVars, z (idx a) i * A i j := by
      rw [ae_all_iff]; intro idx
      rw [ae_all_iff]; intro κ
      rw [ae_all_iff]; intro pos
      by_cases hinj : Function.Injective idx
      swap
      · exact Filter.Eventually.of_forall fun z h => absurd h hinj
      have := drawsLaw_ae (law := kdeLaw cfg.base.nVars) (n := cfg.base.nVars) (fun j hj => kdeLaw_ac hj) hinj
        (genPos_affine hA fun a j => pt (κ a) j + sh (pos a) j)
      filter_upwards [this] with z hz _
      exact hz
    filter_upwards [hgp] with z hz s1' hvis' ρ' hρz hρl s2' fl2' hst' s3 noisy htr hno
    obtain rfl := visited_unique hvis hvis'
    obtain ⟨t1', noisy1', _, _, _, _, hs'⟩ := step_ok hst'
    have ht1 : t1' = t1 := by
      have := hs'.trunc; rw [hs.trunc] at this; exact (Except.ok.inj this).symm
    subst ht1
    have hno1 : noisy1' = noisy1 := by
      have := hs'.noise; rw [hs.noise] at this; exact (Except.ok.inj this).symm
    subst hno1
    have hpm : s2'.pm = s2.pm := by
      have h1 := hs'.update
      rw [hρl, hs.update] at h1
      exact (Except.ok.inj h1).symm
    have hsm := hs'.sample
    rw [hmk.sample, hpm, hρz] at hsm
    have hsm : s2.pm.sample fac cfg.base.sizeGen z = .ok s2'.gen := hsm
    obtain ⟨g1, g2, g3, g4⟩ := hsamp _ _ _ hsm
    have ha1 := visited_aligned hv hvis
    have ha2 := step_aligned hv ha1 hst'
    have helite : s2'.elite.rows.length ≤ (selLen fl cfg.base.sizeGen cfg.base.eliteFactor).toNat := by
      obtain ⟨P, _, _, _, _, hP, _⟩ := truncation_ok hv ha1 hs'.trunc
      rw [hs'.elite, hP, hmk.eliteLen]
      simp only [List.length_map, List.length_take, sliceLen, if_pos hel]
      omega
    have hcount : cfg.base.nVars + 1 + s2'.elite.rows.length ≤ s3.gen.rows.length := by
      obtain ⟨P, hP1, _, hP, _⟩ := truncation_ok hv ha2 htr
      have hPl := hP1.length_eq
      rw [poolOf_length ha2, g2] at hPl
      rw [hP, hmk.truncLen]
      have : 0 ≤ selLen fl cfg.base.sizeGen cfg.base.alpha := by omega
      simp only [List.length_map, List.length_take, sliceLen, if_pos this]
      omega
    refine learn_new_rows hv ha2 htr hn g1 g3 hcount (hsh _ _ hno) ?_ hp _
    intro idx pos hinj hidx
    convert hz idx (fun a => pick N (z (idx a) cfg.base.nVars)) pos hinj using 3 with a j
    rw [g4 (idx a) (by rw [← g2]; exact hidx a) j]
    ring
  filter_upwards [hlast] with z hz ω hω hωk
  have hsel2 : 2 ≤ selLen fl cfg.base.sizeGen cfg.base.alpha := by omega
  obtain ⟨res', s', hr'⟩ := keda_returns (cfg := kedaMax cfg (k + 2)) (f := f) (ftol := ftol)
    (ρ := { ρ with sample := ω }) hv hval' hn hm hsel2 hnum he' (by
    intro t s noise' s1 noisy hvis ht hnz2 htr hno
    have hnz2 : e.mkNoise ρ.noise = .ok noise' := hnz2
    rw [hnz] at hnz2
    obtain rfl := Except.ok.inj hnz2
    have hvis := visited_maxIter hvis
    have htr : truncation env e s = .ok s1 := htr
    have ht : (t : ℤ) < k + 2 := ht
    rcases Nat.lt_or_ge k t with hlt | hge
    · have : t = k + 1 := by omega
      subst this
      cases hvis with
      | first h0 => omega
      | next hvk hn2 hst =>
        have hn2 : e.mkNoise ρ.noise = .ok _ := hn2
        rw [hnz] at hn2
        obtain rfl := Except.ok.inj hn2
        exact hz _ (visited_agree hvk rfl rfl rfl fun u hu => (hω u hu).symm)
          { ρ with sample := ω } hωk rfl _ _ hst _ _ htr hno
    · have hvt : Visited env e f ftol b ρ t s := visited_agree hvis rfl rfl rfl fun u hu => (hω u (by omega)).symm
      obtain ⟨s2, fl2, hst, _⟩ := loop_pass_ok (addNoise nz) hnz k 1 s0 _ (.first h0) hl t s hvt (visited_pos hvt) (by omega)
      obtain ⟨t1, noisy1, _, _, _, _, hs⟩ := step_ok hst
      have e1 := hs.trunc
      rw [htr] at e1
      obtain rfl := Except.ok.inj e1
      have e2 := hs.noise
      rw [hno] at e2
      obtain rfl := Except.ok.inj e2
      have hu := hs.update
      rw [hmk.updatePm] at hu
      rw [(truncation_fields htr).2.2.1]
      exact ⟨_, hu⟩)
  exact ⟨_, hr'⟩

/-- One list of evaluations per generation. -/
theorem visited_log_len {R σ Ω : Type} [LawfulCost C] {e : Eda R σ Ω} {f : ℕ → R → C} {pm : σ} {ρ : Rand Ω} {t : ℕ}
    {s : St R C σ} (h : Visited env e f ftol pm ρ t s) : s.log.length = t := by
  induction h with
  | first h0 =>
    obtain ⟨_, _, _, _, _, hs⟩ := start_ok h0
    rw [hs.log]; rfl
  | next _ _ hst ih =>
    obtain ⟨_, _, _, _, _, _, hs⟩ := step_ok hst
    rw [hs.log]; simp [ih]

/-- **C104** Started from the uniform distribution over a box, more than `n_variables + 1` individuals selected: with
probability 1 the first model can be learned, so that the run with `max_iter = 2` returns a result. -/
theorem C104_first [LawfulCost C] [UniformCost C] (hv : env.Valid) {noiseDraws : Draws ℝ} {m : ℕ}
    (hval : UniformValid env.cpu id cfg.base cfg.lower cfg.upper m) (hn : 1 ≤ cfg.base.nVars) (hm : 2 ≤ m)
    (hnum : ∀ k r, IsNum (f k r)) (hp : PosDefTest cfg.base.nVars isPD)
    (hinit : cfg.base.initData = none) (hbox : ∀ j < cfg.base.nVars, cfg.lower.at j < cfg.upper.at j)
    (hsel : cfg.base.nVars + 1 < selLen id cfg.base.sizeGen cfg.base.alpha)
    (hle : selLen id cfg.base.sizeGen cfg.base.alpha ≤ cfg.base.sizeGen) (hmax : cfg.base.maxIter = 2)
    (he : UnivariateKEDA id isPD h2 fac cfg = .ok (e, b)) :
    ∀ᵐ u ∂drawsLaw (fun _ => unif01), ∀ ρ : Rand (Draws ℝ), ρ.noise = noiseDraws → ρ.init = u →
      ∃ r, minimize env e f ftol b ρ = .ok r := by
  have hmk := mkEda_ok (UnivariateKEDA_ok he).1
  obtain ⟨sh, hsh⟩ : ∃ sh : ℕ → ℕ → ℝ, ∀ nz, mkWhiteNoise cfg.base.noiseAttr (selLen id cfg.base.sizeGen cfg.base.alpha)
      cfg.base.nVars noiseDraws = .ok nz → ∀ g g' : Gen (List ℝ), addNoise nz g = .ok g' → g'.cols = g.cols ∧
      g'.rows.length = g.rows.length ∧ ∀ (p : ℕ) (r : List ℝ), g.rows[p]? = some r →
        ∃ r', g'.rows[p]? = some r' ∧ ∀ j < r.length, r'.getD j 0 = r.getD j 0 + sh p j := by
    rcases hnz : mkWhiteNoise cfg.base.noiseAttr (selLen id cfg.base.sizeGen cfg.base.alpha)
      cfg.base.nVars noiseDraws with err | nz
    · exact ⟨fun _ _ => 0, fun nz h => by simp at h⟩
    · obtain ⟨sh, h⟩ := addNoise_shift hnz
      exact ⟨sh, fun nz' h' => by rw [← Except.ok.inj h']; exact h⟩
  set A : Matrix (Fin cfg.base.nVars) (Fin cfg.base.nVars) ℝ :=
    Matrix.diagonal fun j => cfg.upper.at j - cfg.lower.at j with hAd
  have hA : IsUnit A.det := by
    rw [hAd, Matrix.det_diagonal, isUnit_iff_ne_zero]
    exact Finset.prod_ne_zero_iff.2 fun j _ => (sub_pos.2 (hbox j j.2)).ne'
  have hgp : ∀ᵐ u ∂drawsLaw (fun _ => unif01), ∀ idx pos : Fin (cfg.base.nVars + 1) → ℕ,
      Function.Injective idx → GeneralPosition fun a (j : Fin cfg.base.nVars) =>
        cfg.lower.at j + sh (pos a) j + ∑ i : Fin cfg.base.nVars, u (idx a) i * A i j := by
    rw [ae_all_iff]; intro idx
    rw [ae_all_iff]; intro pos
    by_cases hinj : Function.Injective idx
    swap
    · exact Filter.Eventually.of_forall fun z h => absurd h hinj
    have := drawsLaw_ae (law := fun _ => unif01) (n := cfg.base.nVars)
      (fun _ _ => Measure.restrict_le_self.absolutelyContinuous) hinj
      (genPos_affine hA fun a j => cfg.lower.at j + sh (pos a) j)
    filter_upwards [this] with z hz _
    exact hz
  filter_upwards [hgp] with u hu ρ hρn hρi
  obtain ⟨res, s, h⟩ := keda_returns (f := f) (ftol := ftol) (ρ := ρ) hv hval hn hm (by omega) hnum he (by
    intro t s noise s1 noisy hvis ht hnz htr hno
    rw [hmk.maxIter, hmax] at ht
    have ht1 := visited_pos hvis
    have : t = 1 := by omega
    subst this
    rw [hmk.mkNoise, hρn] at hnz
    obtain ⟨nz, hmkn, rfl⟩ : ∃ nz, mkWhiteNoise cfg.base.noiseAttr (selLen id cfg.base.sizeGen cfg.base.alpha)
        cfg.base.nVars noiseDraws = .ok nz ∧ addNoise nz = noise := by
      split at hnz
      · simp at hnz
      · rename_i nz hmk
        exact ⟨nz, hmk, Except.ok.inj hnz⟩
    have ha := visited_aligned hv hvis
    cases hvis with
    | next hvk _ _ => exact absurd (visited_pos hvk) (by omega)
    | first h0 =>
      obtain ⟨_, r0, _, _, _, hs⟩ := start_ok h0
      have hi := hs.init
      rw [hmk.initNone hinit, hρi] at hi
      obtain ⟨g1, g2, g3, g4⟩ := uniformInitSample_shape hi
      have hel : s.elite.rows.length = 1 := by rw [hs.elite]; rfl
      have hcount : cfg.base.nVars + 1 + s.elite.rows.length ≤ s1.gen.rows.length := by
        obtain ⟨P, hP1, _, hP, _⟩ := truncation_ok hv ha htr
        have hPl := hP1.length_eq
        rw [poolOf_length ha] at hPl
        rw [hP, hmk.truncLen]
        have : 0 ≤ selLen id cfg.base.sizeGen cfg.base.alpha := by omega
        simp only [List.length_map, List.length_take, sliceLen, if_pos this]
        omega
      refine learn_new_rows hv ha htr hn g2 g3 hcount (hsh _ hmkn _ _ hno) ?_ hp _
      intro idx pos hinj hidx
      convert hu idx pos hinj using 3 with a j
      unfold uniformInitSample at hi
      split at hi
      · simp at hi
      rename_i ui hui
      obtain ⟨_, _, rfl⟩ := UniformInit.new_ok hui
      obtain ⟨_, _, _, _, _, hg⟩ := UniformInit.sample_ok hi
      have hlt := hidx a
      rw [hg] at hlt ⊢
      simp only [List.length_map, List.length_range] at hlt
      simp only [id_eq]
      rw [List.getD_eq_getElem?_getD, List.getD_eq_getElem?_getD, List.getElem?_map, List.getElem?_range hlt]
      simp only [Option.map_some, Option.getD_some]
      rw [List.getElem?_map, List.getElem?_range j.2]
      simp only [Option.map_some, Option.getD_some]
      rw [Finset.sum_eq_single j (fun i _ hi => by rw [hAd, Matrix.diagonal_apply_ne _ hi, mul_zero]) (by simp), hAd,
        Matrix.diagonal_apply_eq]
      ring)
  exact ⟨_, h⟩

/-- **C104** Whatever happened before: if `UnivariateKEDA` sampled generation `t`, then for every nonempty open region
the draws of this generation for which one of its individuals is in the region have positive probability. -/
theorem C104_reach [LawfulCost C] [UniformCost C] (hv : env.Valid) {m : ℕ}
    (hval : UniformValid env.cpu fl cfg.base cfg.lower cfg.upper m) (hn : 1 ≤ cfg.base.nVars) (hm : 2 ≤ m)
    (hsel : 2 ≤ selLen fl cfg.base.sizeGen cfg.base.alpha)
    (hnum : ∀ k r, IsNum (f k r)) (hp : PosDefTest cfg.base.nVars isPD) (hh : ∀ N d, 0 < N → 0 < h2 N d)
    (hfac : Decomposes cfg.base.nVars fac) {t : ℕ} (ht : 1 ≤ t)
    (hmax : cfg.base.maxIter = t + 1) (he : UnivariateKEDA fl isPD h2 fac cfg = .ok (e, b))
    {res : EdaResult (List ℝ) C} {s : St (List ℝ) C (UniKDE ℝ)} (hrun : minimize env e f ftol b ρ = .ok (res, s))
    (hlen : t < res.history.length) {O : Set (Fin cfg.base.nVars → ℝ)} (hO : IsOpen O) (hne : O.Nonempty) :
    drawsLaw (kdeLaw cfg.base.nVars) {z | ∃ res' s', minimize env e f ftol b
      { ρ with sample := Function.update ρ.sample t z } = .ok (res', s') ∧
        ∃ p ∈ s'.log.getD t [], (fun j : Fin cfg.base.nVars => p.1.getD j 0) ∈ O} ≠ 0 := by
  have hmk := mkEda_ok (UnivariateKEDA_ok he).1
  have hsize : 0 < cfg.base.sizeGen.toNat := by have := hval.size; omega
  obtain ⟨s1, s2, fl2, noise, hvis, hnz, hst, _⟩ := minimize_pass_log hv hrun ht hlen
  obtain ⟨t1, noisy1, _, _, _, _, hs⟩ := step_ok hst
  have hu := hs.update
  rw [hmk.updatePm] at hu
  have hu : s1.pm.learn isPD h2 noisy1 = .ok s2.pm := hu
  have hc1 : noisy1.cols = cfg.base.nVars := by
    have hnz' := hnz
    rw [hmk.mkNoise] at hnz'
    obtain ⟨nz, hmkn, rfl⟩ : ∃ nz, mkWhiteNoise cfg.base.noiseAttr (selLen fl cfg.base.sizeGen cfg.base.alpha)
        cfg.base.nVars ρ.noise = .ok nz ∧ addNoise nz = noise := by
      split at hnz'
      · simp at hnz'
      · rename_i nz hmk
        exact ⟨nz, hmk, Except.ok.inj hnz'⟩
    obtain ⟨_, hsh⟩ := addNoise_shift hmkn
    rw [(hsh _ _ hs.noise).1, (truncation_shape hs.trunc).2.1, keda_cols he hvis]
  obtain ⟨A, N, pt, hA, hN, hsamp⟩ := UniKDE.learn_sample hu hp hc1 hh hfac
  -- the draws that lead to the middle of the region
  obtain ⟨x, hx⟩ := hne
  set z0 : Fin cfg.base.nVars → ℝ := Matrix.vecMul (fun j => x j - pt 0 j) A⁻¹ with hz0
  have hcont : Continuous fun (y : Fin cfg.base.nVars → ℝ) (j : Fin cfg.base.nVars) => pt 0 j + ∑ k, y k * A k j := by
    fun_prop
  have hmem : z0 ∈ (fun (y : Fin cfg.base.nVars → ℝ) (j : Fin cfg.base.nVars) => pt 0 j + ∑ k, y k * A k j) ⁻¹' O := by
    have hb : Matrix.vecMul z0 A = fun j => x j - pt 0 j := by
      rw [hz0, Matrix.vecMul_vecMul, Matrix.nonsing_inv_mul A hA, Matrix.vecMul_one]
    have : (fun j : Fin cfg.base.nVars => pt 0 j + ∑ k, z0 k * A k j) = x := by
      funext j
      have := congrFun hb j
      simp only [Matrix.vecMul, dotProduct] at this
      rw [this]; ring
    rw [Set.mem_preimage, this]
    exact hx
  obtain ⟨ε, hε, hball⟩ := Metric.isOpen_iff.1 (hO.preimage hcont) z0 hmem
  have hN' : (0 : ℝ) < N := by exact_mod_cast hN
  let T : ℕ → Set ℝ := fun j => if h : j < cfg.base.nVars then Metric.ball (z0 ⟨j, h⟩) ε else Set.Ico 0 (1 / N)
  have hT : ∀ j, MeasurableSet (T j) := by
    intro j; simp only [T]; split
    · exact measurableSet_ball
    · exact measurableSet_Ico
  have hpos : drawsLaw (kdeLaw cfg.base.nVars) (Set.pi (Finset.range 1 : Set ℕ) fun _ =>
      Set.pi (Finset.range (cfg.base.nVars + 1) : Set ℕ) T) ≠ 0 := by
    rw [drawsLaw, Measure.infinitePi_pi _ fun _ _ => MeasurableSet.pi (Finset.countable_toSet _) fun j _ => hT j]
    refine Finset.prod_ne_zero_iff.2 fun _ _ => ?_
    rw [Measure.infinitePi_pi _ fun j _ => hT j]
    refine Finset.prod_ne_zero_iff.2 fun j hj => ?_
    unfold kdeLaw
    simp only [T]
    split
    · intro h0
      exact Metric.isOpen_ball.measure_ne_zero volume (Metric.nonempty_ball.2 hε)
        (gaussianReal_absolutelyContinuous' 0 one_ne_zero h0)
    · rw [unif01, Measure.restrict_apply measurableSet_Ico, Set.Ico_inter_Ico, Real.volume_Ico]
      have h1 : (1 : ℝ) / N ≤ 1 := by
        rw [div_le_one hN']; exact_mod_cast hN
      simp only [ne_eq, ENNReal.ofReal_eq_zero, not_le]
      rw [max_self, min_eq_left h1]
      have : 0 < (1 : ℝ) / N := by positivity
      linarith
  refine fun h0 => hpos (measure_mono_null ?_ h0)
  intro z hz
  have hz : ∀ j < cfg.base.nVars + 1, z 0 j ∈ T j := by
    intro j hj
    exact hz 0 (by simp) j (by simpa using hj)
  have hagree : ∀ u < t, Function.update ρ.sample t z u = ρ.sample u := fun u hu => Function.update_of_ne (by omega) _ _
  obtain ⟨s0, noise', hst0, hnz0, hl, _⟩ := minimize_ok hrun
  rw [hnz] at hnz0
  obtain rfl := Except.ok.inj hnz0
  have hpasses : ((e.maxIter - 1).toNat) = t := by rw [hmk.maxIter, hmax]; omega
  rw [hpasses] at hl
  obtain ⟨res', s', hr'⟩ := keda_returns (f := f) (ftol := ftol)
    (ρ := { ρ with sample := Function.update ρ.sample t z }) hv hval hn hm hsel hnum he (by
    intro t' s3 noise' s4 noisy hvis' ht' hnz2 htr hno
    have hnz2 : e.mkNoise ρ.noise = .ok noise' := hnz2
    rw [hnz] at hnz2
    obtain rfl := Except.ok.inj hnz2
    rw [hmk.maxIter, hmax] at ht'
    have hvt : Visited env e f ftol b ρ t' s3 :=
      visited_agree hvis' rfl rfl rfl fun u hu => (hagree u (by omega)).symm
    obtain ⟨s5, fl5, hst5, _⟩ := loop_pass_ok noise hnz t 1 s0 _ (.first hst0) hl t' s3 hvt (visited_pos hvt) (by omega)
    obtain ⟨t5, noisy5, _, _, _, _, hs5⟩ := step_ok hst5
    have e1 := hs5.trunc
    rw [htr] at e1
    obtain rfl := Except.ok.inj e1
    have e2 := hs5.noise
    rw [hno] at e2
    obtain rfl := Except.ok.inj e2
    have hu := hs5.update
    rw [hmk.updatePm] at hu
    rw [(truncation_fields htr).2.2.1]
    exact ⟨_, hu⟩)
  refine ⟨res', s', hr', ?_⟩
  obtain ⟨s0', noise', hst0', hnz0', hl', _⟩ := minimize_ok hr'
  have hnz0' : e.mkNoise ρ.noise = .ok noise' := hnz0'
  rw [hnz] at hnz0'
  obtain rfl := Except.ok.inj hnz0'
  rw [hpasses] at hl'
  have hvis2 : Visited env e f ftol b { ρ with sample := Function.update ρ.sample t z } t s1 :=
    visited_agree hvis rfl rfl rfl hagree
  obtain ⟨s6, fl6, hst6, hpre⟩ := loop_pass_ok (ρ := { ρ with sample := Function.update ρ.sample t z })
    noise hnz t 1 s0' _ (.first hst0') hl' t s1 hvis2 ht (by omega)
  obtain ⟨t6, noisy6, ev6, _, _, _, hs6⟩ := step_ok hst6
  have e1 := hs6.trunc
  rw [hs.trunc] at e1
  obtain rfl := Except.ok.inj e1
  have e2 := hs6.noise
  rw [hs.noise] at e2
  obtain rfl := Except.ok.inj e2
  have hpm : s6.pm = s2.pm := by
    have h1 := hs6.update
    rw [show e.updatePm s1.pm noisy1 t1.elite (ρ.learn t) = .ok s2.pm from hs.update] at h1
    exact (Except.ok.inj h1).symm
  have hsm := hs6.sample
  rw [hmk.sample, hpm] at hsm
  have hsm : s2.pm.sample fac cfg.base.sizeGen z = .ok s6.gen := by
    have hsm : s2.pm.sample fac cfg.base.sizeGen (Function.update ρ.sample t z t) = .ok s6.gen := hsm
    rwa [Function.update_self] at hsm
  obtain ⟨g1, g2, g3, g4⟩ := hsamp _ _ _ hsm
  have h0len : 0 < s6.gen.rows.length := by rw [g2]; exact hsize
  have hin : s6.gen.rows.getD 0 [] ∈ ev6.calls.map Prod.fst := by
    have : ev6.calls.map Prod.fst = s6.gen.rows := by
      rw [(check_calls hv hs6.check).2, List.map_fst_zip]
      unfold callRows; simp
    rw [this, List.getD_eq_getElem?_getD, List.getElem?_eq_getElem h0len]
    exact List.getElem_mem _
  obtain ⟨p, hp1, hp2⟩ := List.mem_map.1 hin
  refine ⟨p, ?_, ?_⟩
  · obtain ⟨l, hl⟩ := hpre
    have hl1 := visited_log_len hvis
    rw [← hl, hs6.log, List.append_assoc, List.getD_eq_getElem?_getD, ← hl1, List.getElem?_append_right le_rfl]
    simpa using hp1
  · rw [hp2]
    have hpick : pick N (z 0 cfg.base.nVars) = 0 := by
      have := hz cfg.base.nVars (by omega)
      simp only [T, lt_irrefl, dite_false, Set.mem_Ico] at this
      rw [C58_pick hN this.1]
      simp only [Nat.cast_zero, zero_div, zero_add]
      exact this
    have hb : (fun k : Fin cfg.base.nVars => z 0 k) ∈ Metric.ball z0 ε := by
      rw [Metric.mem_ball, dist_pi_lt_iff hε]
      intro j
      have := hz j (by omega)
      simp only [T, Fin.is_lt, dite_true] at this
      exact this
    have := hball hb
    rw [Set.mem_preimage] at this
    convert this using 2 with j
    rw [g4 0 hsize j, hpick]

end run

/-- Ten individuals of two variables from a box, five are selected, one is in the elite. -/
noncomputable def Ex.wide : KedaCfg ℝ :=
  { base := { sizeGen := 10, maxIter := 2, deadIter := 0, nVars := 2, alpha := 1/2, eliteFactor := 1/10,
              parallel := false, wNoise := none, initData := none }
    lower := .array [0, -1], upper := .scalar 1 }

theorem Ex.wide_valid : UniformValid realEnv.cpu id Ex.wide.base Ex.wide.lower Ex.wide.upper 10 where
  dead := by norm_num [Ex.wide]
  size := le_refl _
  pos := by norm_num
  trunc := by norm_num [Ex.wide, selLen, pyInt, Num.truncZ]
  cpu := by intro h; simp [Ex.wide] at h
  noise := .inl rfl
  lower := rfl
  upper := trivial
  data := by intro d hd; simp [Ex.wide] at hd

theorem Ex.wide_alpha : selLen id Ex.wide.base.sizeGen Ex.wide.base.alpha = 5 := by
  norm_num [Ex.wide, selLen, pyInt, Num.truncZ]

theorem Ex.wide_elite : selLen id Ex.wide.base.sizeGen Ex.wide.base.eliteFactor = 1 := by
  norm_num [Ex.wide, selLen, pyInt, Num.truncZ]

/-- C104, all parts for one configuration with Scott's bandwidth: almost all first generations lead to a model; from
each of them the second generation reaches the ball with radius 1/100 about (1000, 1000) with positive probability, far
away from the box, and with probability 1 the model can be learned again. -/
example (f : ℕ → List ℝ → ℝ) : ∃ isPD fac, PosDefTest 2 isPD ∧ Decomposes 2 fac ∧ ∃ e b,
    UnivariateKEDA id isPD (fun N d => (N : ℝ) ^ (-2 / (d + 4) : ℝ)) fac Ex.wide = .ok (e, b) ∧
    ∀ᵐ u ∂drawsLaw (fun _ => unif01), ∃ r,
      minimize realEnv e f 0 b ⟨u, fun _ _ => 0, fun _ _ _ => 0, fun _ _ _ => 0⟩ = .ok r ∧
      (drawsLaw (kdeLaw 2) {z | ∃ res' s', minimize realEnv e f 0 b
        ⟨u, fun _ _ => 0, fun _ _ _ => 0, Function.update (fun _ _ _ => 0) 1 z⟩ = .ok (res', s') ∧
          ∃ p ∈ s'.log.getD 1 [], (fun j : Fin 2 => p.1.getD j 0) ∈ Metric.ball (fun _ => 1000) (1 / 100)} ≠ 0) ∧
      ∃ e', UnivariateKEDA id isPD (fun N d => (N : ℝ) ^ (-2 / (d + 4) : ℝ)) fac (kedaMax Ex.wide 3) = .ok (e', b) ∧
        ∀ᵐ z ∂drawsLaw (kdeLaw 2), ∃ r', minimize realEnv e' f 0 b
          ⟨u, fun _ _ => 0, fun _ _ _ => 0, Function.update (fun _ _ _ => 0) 1 z⟩ = .ok r' := by
  obtain ⟨isPD, hp⟩ := posDefTest_exists (K := ℝ) 2
  obtain ⟨fac, hfac⟩ := svdRoots_symmetric 2
  have hh : ∀ N d : ℕ, 0 < N → 0 < (N : ℝ) ^ (-2 / (d + 4) : ℝ) := fun N d h =>
    Real.rpow_pos_of_pos (by exact_mod_cast h) _
  obtain ⟨e, b, he, _⟩ := C60_returns_or_singular_partial (fl := id) (isPD := isPD)
    (h2 := fun N d => (N : ℝ) ^ (-2 / (d + 4) : ℝ)) (fac := fac) (f := f) (ftol := (0 : ℝ))
    (ρ := ⟨fun _ _ => 0, fun _ _ => 0, fun _ _ _ => 0, fun _ _ _ => 0⟩) realEnv_valid Ex.wide_valid
    (show 1 ≤ 2 by omega) (by omega) (by rw [Ex.wide_alpha]; omega) (fun _ _ => field_isNum _)
  refine ⟨isPD, fac, hp, hfac, e, b, he, ?_⟩
  have h1 := C104_first (env := realEnv) (f := f) (ftol := 0) (noiseDraws := fun _ _ => 0) realEnv_valid Ex.wide_valid
    (show 1 ≤ 2 by omega) (by omega) (fun _ _ => field_isNum _) hp rfl
    (by
      intro j hj
      have hj : j < 2 := hj
      interval_cases j <;> norm_num [Ex.wide, Bound.at])
    (by rw [Ex.wide_alpha]; norm_num [Ex.wide]) (by rw [Ex.wide_alpha]; norm_num [Ex.wide]) rfl he
  filter_upwards [h1] with u hu
  obtain ⟨⟨res, s⟩, hr⟩ := hu ⟨u, fun _ _ => 0, fun _ _ _ => 0, fun _ _ _ => 0⟩ rfl rfl
  have hmk := mkEda_ok (UnivariateKEDA_ok he).1
  refine ⟨_, hr, ?_, ?_⟩
  · exact C104_reach realEnv_valid Ex.wide_valid (show 1 ≤ 2 by omega) (by omega) (by rw [Ex.wide_alpha]; omega)
      (fun _ _ => field_isNum _) hp hh hfac (t := 1) le_rfl rfl he hr (history_max (m := 2) hmk.deadIter hmk.maxIter hr)
      Metric.isOpen_ball (Metric.nonempty_ball.2 (by norm_num))
  · obtain ⟨e', he', h⟩ := C104_next realEnv_valid Ex.wide_valid (show 1 ≤ 2 by omega) (by omega)
      (fun _ _ => field_isNum _) hp hh hfac (by rw [Ex.wide_elite]; omega)
      (by rw [Ex.wide_alpha, Ex.wide_elite]; norm_num [Ex.wide]) (by rw [Ex.wide_alpha]; norm_num [Ex.wide]) (k := 1)
      le_rfl rfl he hr
    refine ⟨e', he', ?_⟩
    filter_upwards [h] with z hz
    exact hz _ (fun v hv => Function.update_of_ne (by omega) _ _) (Function.update_self ..)

end Verif
