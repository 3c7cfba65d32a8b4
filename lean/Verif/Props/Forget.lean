/-
C108: `UMDAc` and `PBIL` forget how the variables of the selected individuals are correlated.
-/
import Verif.Props.EmnaWidth
import Verif.Props.KedaSpread

set_option linter.unusedSectionVars false

namespace Verif

open PyCost Spec MeasureTheory ProbabilityTheory

namespace Spec

/-- The individuals `p + t • d`, with `n` variables, for the given numbers `t`: points of a line. -/
def onLine (n : ℕ) (p d : ℕ → ℝ) (ts : List ℝ) : List (List ℝ) :=
  ts.map fun t => (List.range n).map fun j => p j + d j * t

/-- The variance in the direction `w` of independent variables whose deviations are those of the columns of `rows`, or
`lb` if that is greater. -/
noncomputable def independentSpread (n : ℕ) (lb : ℝ) (w : ℕ → ℝ) (rows : List (List ℝ)) : ℝ :=
  ∑ j ∈ Finset.range n, w j ^ 2 * max (Real.sqrt (Spec.variance (col rows j))) lb ^ 2

end Spec

section line
variable {n : ℕ} {p d : ℕ → ℝ} {ts : List ℝ}

theorem covariance_variance {l : List ℝ} (h : 2 ≤ l.length) :
    Spec.covariance l l = Spec.variance l * (l.length / (l.length - 1)) := by
  have h0 : (l.length : ℝ) ≠ 0 := by exact_mod_cast (by omega : l.length ≠ 0)
  have h1 : (l.length : ℝ) - 1 ≠ 0 := by
    have : (2 : ℝ) ≤ l.length := by exact_mod_cast h
    linarith
  have : List.zipWith (fun a b => (a - Spec.mean l) * (b - Spec.mean l)) l l = l.map fun x => (x - Spec.mean l) ^ 2 := by
    rw [List.zipWith_self]
    exact List.map_congr_left fun x _ => (pow_two _).symm
  unfold Spec.covariance Spec.variance
  rw [this]
  generalize hS : l.map (fun x => (x - Spec.mean l) ^ 2) = S
  have hSl : S.length = l.length := by rw [← hS, List.length_map]
  unfold Spec.mean
  rw [hSl]
  field_simp

theorem line_col {j : ℕ} (hj : j < n) : col (onLine n p d ts) j = ts.map fun t => d j * t + p j := by
  unfold col onLine
  rw [List.map_map]
  refine List.map_congr_left fun t _ => ?_
  simp only [Function.comp]
  rw [List.getD_eq_getElem?_getD, List.getElem?_map, List.getElem?_range hj, Option.map_some, Option.getD_some]
  ring

theorem line_along (w : ℕ → ℝ) : along n w (onLine n p d ts) =
    ts.map fun t => (∑ j ∈ Finset.range n, w j * d j) * t + ∑ j ∈ Finset.range n, w j * p j := by
  unfold along onLine
  rw [List.map_map]
  refine List.map_congr_left fun t _ => ?_
  simp only [Function.comp]
  rw [Finset.sum_mul, ← Finset.sum_add_distrib]
  refine Finset.sum_congr rfl fun j hj => ?_
  rw [List.getD_eq_getElem?_getD, List.getElem?_map, List.getElem?_range (Finset.mem_range.1 hj), Option.map_some,
    Option.getD_some]
  ring

/-- **C108** Individuals on a line: their spread in the direction `w`, and that of independent variables with the same
deviations. -/
theorem C108_line (hts : 2 ≤ ts.length) (w : ℕ → ℝ) :
    spread n w (onLine n p d ts) =
      (∑ j ∈ Finset.range n, w j * d j) ^ 2 * (Spec.variance ts * (ts.length / (ts.length - 1))) ∧
    independentSpread n 0 w (onLine n p d ts) = (∑ j ∈ Finset.range n, (w j * d j) ^ 2) * Spec.variance ts := by
  have hne : ts ≠ [] := by intro h; rw [h] at hts; simp at hts
  constructor
  · unfold spread
    rw [line_along, covariance_variance (by simpa using hts), variance_affine hne, List.length_map]
    ring
  · unfold independentSpread
    rw [Finset.sum_mul]
    refine Finset.sum_congr rfl fun j hj => ?_
    rw [line_col (Finset.mem_range.1 hj), variance_affine hne, max_eq_left (Real.sqrt_nonneg _), Real.sq_sqrt]
    · ring
    · exact mul_nonneg (mul_self_nonneg _) (Verif.variance_nonneg _)

end line

section learn

/-- What `learn` makes of the deviations. -/
def Deviates (n : ℕ) (lb : ℝ)
    (learn : UniGauss ℝ → Gen (List ℝ) → Gen (List ℝ) → Draws ℝ → Except PyErr (UniGauss ℝ)) : Prop :=
  ∀ b g el ω b', b.n = n → b.lb = lb → learn b g el ω = .ok b' →
    ∀ j < n, b'.std.getD j 0 = max (Real.sqrt (Spec.variance (col g.rows j))) lb

theorem deviates_aux {n : ℕ} {lb : ℝ} {rows : List (List ℝ)} {j : ℕ} (hj : j < n) :
    ((List.range n).map (fun j => floorStd lb (colStd Real.sqrt rows j))).getD j 0 =
      max (Real.sqrt (Spec.variance (col rows j))) lb := by
  rw [List.getD_eq_getElem?_getD, List.getElem?_map, List.getElem?_range hj, Option.map_some, Option.getD_some, colStd_eq]
  unfold floorStd
  split
  · rw [max_eq_right (by linarith)]
  · rw [max_eq_left (by linarith)]

theorem deviates_learn {n : ℕ} (hn : 0 < n) (lb : ℝ) : Deviates n lb (fun b g _ (_ : Draws ℝ) => b.learn Real.sqrt g) := by
  intro b g _ _ b' h1 h2 h j hj
  simp only at h
  unfold UniGauss.learn at h
  rw [if_neg (by omega)] at h
  split at h
  · cases h
  split at h
  · cases h
  obtain rfl := Except.ok.inj h
  rw [← h2]
  exact deviates_aux (by omega)

theorem deviates_learnAdapt {n : ℕ} (hn : 0 < n) (lb alpha : ℝ) :
    Deviates n lb (fun b g _ (_ : Draws ℝ) => b.learnAdapt Real.sqrt alpha g) := by
  intro b g _ _ b' h1 h2 h j hj
  simp only at h
  unfold UniGauss.learnAdapt at h
  rw [if_neg (by omega)] at h
  split at h
  · cases h
  split at h
  · obtain rfl := Except.ok.inj h
    rw [← h2]
    exact deviates_aux (by omega)
  · cases h

end learn

section sample

/-- The expected spread of what a univariate normal model samples. -/
theorem gauss_spread {b : UniGauss ℝ} {n : ℕ} {lb : ℝ} (hb : b.Good n lb) {size : ℤ} (hs : 2 ≤ size) (w : ℕ → ℝ) :
    ∃ X : Draws ℝ → ℝ, (∀ z, ∃ out, b.sample size z = .ok out ∧ out.rows.length = size.toNat ∧
        X z = spread n w out.rows) ∧ Integrable X Spec.normalDraws ∧
      ∫ z, X z ∂Spec.normalDraws = ∑ j ∈ Finset.range n, w j ^ 2 * b.std.getD j 0 ^ 2 := by
  obtain ⟨hi, hE⟩ := normal_spread (n := n) (∑ j ∈ Finset.range n, w j * b.mean.getD j 0) (fun j => w j * b.std.getD j 0)
    (m := size.toNat) (by omega)
  refine ⟨_, fun z => ⟨_, UniGauss.sample_eq hb (by omega) z, by simp, ?_⟩, hi, ?_⟩
  · have : along n w ((List.range size.toNat).map (fun i => (List.range n).map (fun j =>
        b.mean.getD j 0 + b.std.getD j 0 * z i j))) = (List.range size.toNat).map fun i =>
          ∑ j ∈ Finset.range n, w j * b.mean.getD j 0 + ∑ j ∈ Finset.range n, z i j * (w j * b.std.getD j 0) := by
      unfold along
      rw [List.map_map]
      refine List.map_congr_left fun i _ => ?_
      simp only [Function.comp]
      rw [← Finset.sum_add_distrib]
      refine Finset.sum_congr rfl fun j hj => ?_
      rw [List.getD_eq_getElem?_getD, List.getElem?_map, List.getElem?_range (Finset.mem_range.1 hj), Option.map_some,
        Option.getD_some]
      ring
    rw [spread, this]
  · rw [hE]
    exact Finset.sum_congr rfl fun j _ => by ring

end sample

section run
variable {fl : ℝ → ℝ} {cfg : UMDAcCfg ℝ} {env : Env ℝ} {f : ℕ → List ℝ → ℝ} {ftol : ℝ} {ρ : Rand (Draws ℝ)}
variable {e : Eda (List ℝ) (UniGauss ℝ) (Draws ℝ)} {b : UniGauss ℝ}

theorem cont_forgets (hv : env.Valid) {base : BaseCfg ℝ (List ℝ)}
    {learn : UniGauss ℝ → Gen (List ℝ) → Gen (List ℝ) → Draws ℝ → Except PyErr (UniGauss ℝ)}
    (h : mkCont fl base cfg learn = .ok (e, b)) (hsize : 2 ≤ cfg.base.sizeGen)
    (hcpu : base.parallel = true → (env.cpu : ℤ) ≤ cfg.base.sizeGen) (hnz : base.noiseAttr = 0)
    (hl : Floors cfg.base.nVars cfg.lowerFactor learn) (hd : Deviates cfg.base.nVars cfg.lowerFactor learn)
    {res : EdaResult (List ℝ) ℝ} {s : St (List ℝ) ℝ (UniGauss ℝ)} (hrun : minimize env e f ftol b ρ = .ok (res, s))
    {T : ℕ} (hmax : base.maxIter = T + 2) (hlen : res.history.length = T + 2) :
    ∃ s1 s1', Visited env e f ftol b ρ (T + 1) s1 ∧ truncation env e s1 = .ok s1' ∧
      ∀ w, ∃ X : Draws ℝ → ℝ, (∀ z, ∃ res' s', minimize env e f ftol b
          (replaceDraws ρ (T + 1) z) = .ok (res', s') ∧ s'.log.dropLast = s.log.dropLast ∧
            X z = spread cfg.base.nVars w ((s'.log.getD (T + 1) []).map Prod.fst)) ∧
        Integrable X Spec.normalDraws ∧
        ∫ z, X z ∂Spec.normalDraws = independentSpread cfg.base.nVars cfg.lowerFactor w s1'.gen.rows := by
  obtain ⟨hmk, _, hb⟩ := mkCont_ok h
  have hm := mkEda_ok hmk
  obtain ⟨s1, s1', noise, noisy, pm', hvis, hn, htr, hno, hu, hsm, hlog, hother⟩ :=
    last_pass hv hrun (by rw [hm.maxIter]; exact hmax) hlen (fun _ _ => field_isNum _)
  have hsame : noisy = s1'.gen := mkNoise_clean hm hnz hn hno
  have hpm : s1.pm.n = cfg.base.nVars ∧ s1.pm.lb = cfg.lowerFactor := by
    refine visited_inv (fun s => s.pm.n = cfg.base.nVars ∧ s.pm.lb = cfg.lowerFactor) ?_ ?_ hvis
    · intro s0 h0
      obtain ⟨_, _, _, _, _, hs⟩ := start_ok h0
      rw [hs.pm, hb]; exact ⟨rfl, rfl⟩
    · intro noise t s s' b' hi _ hst
      obtain ⟨s1, noisy, _, _, _, _, hs⟩ := step_ok hst
      have hu := hs.update
      rw [hm.updatePm] at hu
      have hg := (hl _ _ _ _ _ hi.1 hi.2 hu).1
      exact ⟨hg.n, hg.lb⟩
  rw [hm.updatePm, hsame] at hu
  have hgood := (hl _ _ _ _ _ hpm.1 hpm.2 hu).1
  have hdev := hd _ _ _ _ _ hpm.1 hpm.2 hu
  have hl1 := visited_log_len hvis
  refine ⟨s1, s1', hvis, htr, fun w => ?_⟩
  obtain ⟨X, hX, hi, hE⟩ := gauss_spread hgood hsize w
  refine ⟨X, fun z => ?_, hi, ?_⟩
  · obtain ⟨out, ho, hol, hx⟩ := hX z
    obtain ⟨res', s', r1, r2, r3, r4⟩ := hother z out (by rw [hm.sample]; exact ho)
      (by intro h0; rw [h0] at hol; simp at hol; omega)
      (by intro hp; rw [hm.parallel] at hp; have := hcpu hp; omega)
    have hal : s'.evals.length = out.rows.length := by rw [r4]; simp [callRows]
    refine ⟨res', s', r1, by rw [r3, hlog, List.dropLast_concat, List.dropLast_concat], ?_⟩
    rw [hx, r3, List.getD_eq_getElem?_getD, ← hl1, List.getElem?_append_right le_rfl]
    simp [List.map_fst_zip, hal]
  · rw [hE]
    unfold independentSpread
    exact Finset.sum_congr rfl fun j hj => by rw [hdev j (Finset.mem_range.1 hj)]

/-- **C108** `UMDAc` without white noise: given the generations before, the expected spread of the last generation in any
direction depends only on the deviations of the single variables among the selected individuals (see C09). -/
theorem C108_UMDAc (hv : env.Valid) (h : UMDAc fl Real.sqrt cfg = .ok (e, b)) (hn : 1 ≤ cfg.base.nVars)
    (hsize : 2 ≤ cfg.base.sizeGen) (hcpu : cfg.base.parallel = true → (env.cpu : ℤ) ≤ cfg.base.sizeGen)
    (hnz : cfg.base.noiseAttr = 0) {res : EdaResult (List ℝ) ℝ} {s : St (List ℝ) ℝ (UniGauss ℝ)}
    (hrun : minimize env e f ftol b ρ = .ok (res, s)) {T : ℕ} (hmax : cfg.base.maxIter = T + 2)
    (hlen : res.history.length = T + 2) :
    ∃ s1 s1', Visited env e f ftol b ρ (T + 1) s1 ∧ truncation env e s1 = .ok s1' ∧
      ∀ w, ∃ X : Draws ℝ → ℝ, (∀ z, ∃ res' s', minimize env e f ftol b
          (replaceDraws ρ (T + 1) z) = .ok (res', s') ∧ s'.log.dropLast = s.log.dropLast ∧
            X z = spread cfg.base.nVars w ((s'.log.getD (T + 1) []).map Prod.fst)) ∧
        Integrable X Spec.normalDraws ∧
        ∫ z, X z ∂Spec.normalDraws = independentSpread cfg.base.nVars cfg.lowerFactor w s1'.gen.rows :=
  cont_forgets hv h hsize hcpu hnz (floors_learn real_isSqrt (by omega) _) (deviates_learn (by omega) _) hrun hmax hlen

/-- **C108** The same for `PBIL`, whatever the learning rate is. -/
theorem C108_PBIL (hv : env.Valid) (h : PBIL fl Real.sqrt cfg = .ok (e, b)) (hn : 1 ≤ cfg.base.nVars)
    (hsize : 2 ≤ cfg.base.sizeGen) (hcpu : cfg.base.parallel = true → (env.cpu : ℤ) ≤ cfg.base.sizeGen)
    (hnz : cfg.base.noiseAttr = 0) {res : EdaResult (List ℝ) ℝ} {s : St (List ℝ) ℝ (UniGauss ℝ)}
    (hrun : minimize env e f ftol b ρ = .ok (res, s)) {T : ℕ} (hmax : cfg.base.maxIter = T + 2)
    (hlen : res.history.length = T + 2) :
    ∃ s1 s1', Visited env e f ftol b ρ (T + 1) s1 ∧ truncation env e s1 = .ok s1' ∧
      ∀ w, ∃ X : Draws ℝ → ℝ, (∀ z, ∃ res' s', minimize env e f ftol b
          (replaceDraws ρ (T + 1) z) = .ok (res', s') ∧ s'.log.dropLast = s.log.dropLast ∧
            X z = spread cfg.base.nVars w ((s'.log.getD (T + 1) []).map Prod.fst)) ∧
        Integrable X Spec.normalDraws ∧
        ∫ z, X z ∂Spec.normalDraws = independentSpread cfg.base.nVars cfg.lowerFactor w s1'.gen.rows :=
  cont_forgets hv h hsize hcpu hnz (floors_learnAdapt real_isSqrt (by omega) _ _) (deviates_learnAdapt (by omega) _ _)
    hrun hmax hlen

end run

/-- Three individuals on the diagonal are given; the first one is kept as the elite, so four are there to select from, and
all four are selected. -/
noncomputable def Ex.diagonal : UMDAcCfg ℝ :=
  { base := { sizeGen := 4, maxIter := 2, deadIter := 0, nVars := 2, alpha := 1, eliteFactor := 1/4,
              parallel := false, wNoise := none,
              initData := some { dt := .float, cols := 2, rows := [[0, 0], [2, 2], [2, 2]] } }
    lower := .scalar 0, upper := .scalar 5, vector := none, lowerFactor := 0 }

theorem Ex.diagonal_usable : InitUsable Ex.diagonal := by
  show ∀ bd, bd = Bound.scalar (0 : ℝ) ∨ bd = Bound.scalar 5 → _
  rintro bd (rfl | rfl) <;> trivial

theorem Ex.diagonal_valid : ContValid realEnv.cpu Ex.diagonal.base Ex.diagonal 3
    (selLen id Ex.diagonal.base.sizeGen Ex.diagonal.base.alpha) where
  dead := by norm_num [Ex.diagonal]
  size := by norm_num [Ex.diagonal]
  pos := by norm_num
  trunc := by norm_num [Ex.diagonal, selLen, pyInt, Num.truncZ]
  cpu := by intro h; simp [Ex.diagonal] at h
  noise := .inl rfl
  init := fun _ => Ex.diagonal_usable
  build := (initUsable_sample (fl := id) Ex.diagonal_usable (by norm_num [Ex.diagonal])).1
  data := by
    intro d hd
    simp only [Ex.diagonal, Option.some.injEq] at hd
    subst hd
    refine ⟨⟨rfl, ?_, by simp, by simp⟩, by simp⟩
    intro r hr
    simp only [List.mem_cons, List.not_mem_nil, or_false] at hr
    rcases hr with rfl | rfl | rfl <;> rfl

/-- C108 for every cost function: the four individuals selected by `UMDAc` are on the diagonal.  Along it their spread is
16/3 and that of the next generation is expected to be 2; across it their spread is 0 and that of the next generation is
expected to be 2 as well. -/
example : ∃ e b, UMDAc id Real.sqrt Ex.diagonal = .ok (e, b) ∧
    ∀ (f : ℕ → List ℝ → ℝ) (ρ : Rand (Draws ℝ)), ∃ s1 s1', Visited realEnv e f 0 b ρ 1 s1 ∧
      truncation realEnv e s1 = .ok s1' ∧ spread 2 (fun _ => 1) s1'.gen.rows = 16 / 3 ∧
      spread 2 (fun j => if j = 0 then 1 else -1) s1'.gen.rows = 0 ∧
      ∀ w ∈ ([fun _ => 1, fun j => if j = 0 then 1 else -1] : List (ℕ → ℝ)), ∃ X : Draws ℝ → ℝ,
        (∀ z, ∃ res' s', minimize realEnv e f 0 b (replaceDraws ρ 1 z) = .ok (res', s') ∧
          X z = spread 2 w ((s'.log.getD 1 []).map Prod.fst)) ∧ ∫ z, X z ∂Spec.normalDraws = 2 := by
  have hrun : ∀ (f : ℕ → List ℝ → ℝ) (ρ : Rand (Draws ℝ)), ∃ e b,
      UMDAc id Real.sqrt Ex.diagonal = .ok (e, b) ∧ ∃ res s, minimize realEnv e f 0 b ρ = .ok (res, s) :=
    fun f ρ => C53_UMDAc_never_raises realEnv_valid real_isSqrt Ex.diagonal_valid (fun _ _ => field_isNum _)
  obtain ⟨e, b, h, _⟩ := hrun (fun _ _ => 0) ⟨fun _ _ => 0, fun _ _ => 0, fun _ _ _ => 0, fun _ _ _ => 0⟩
  refine ⟨e, b, h, fun f ρ => ?_⟩
  obtain ⟨e', b', h', res, s, hr⟩ := hrun f ρ
  rw [h] at h'
  obtain ⟨rfl, rfl⟩ := Prod.mk.inj (Except.ok.inj h')
  have hm := mkEda_ok (mkCont_ok h).1
  have hlen : res.history.length = 2 := by
    have := (C06_dead_iter hr).2.2 (by rw [hm.deadIter]; rfl)
    rw [hm.maxIter] at this
    have h3 : (res.history.length : ℤ) = 2 := by simpa [Ex.diagonal] using this
    exact_mod_cast h3
  obtain ⟨s1, s1', hvis, htr, key⟩ := C108_UMDAc realEnv_valid h (by norm_num [Ex.diagonal]) (by norm_num [Ex.diagonal])
    (by intro hp; simp [Ex.diagonal] at hp) rfl hr (T := 0) (by rfl) hlen
  have hp : s1'.gen.rows.Perm (onLine 2 (fun _ => 0) (fun _ => 1) [0, 2, 2, 0]) := by
    have ha := visited_aligned realEnv_valid hvis
    obtain ⟨P, p1, _, p3, _⟩ := truncation_ok realEnv_valid ha htr
    have hrows : s1.gen.rows = [[0, 0], [2, 2], [2, 2]] ∧ s1.elite.rows = [[0, 0]] := by
      generalize ht : 0 + 1 = t at hvis
      cases hvis with
      | next h0 _ _ =>
        have := visited_log_len h0
        cases h0 <;> omega
      | first h0 =>
        obtain ⟨_, _, _, _, _, hs⟩ := start_ok h0
        have hi := hs.init
        rw [(hm.initSome _ rfl).2] at hi
        have hi := (congrArg Gen.rows (Except.ok.inj hi)).symm
        have h0 := hs.row0
        rw [hi] at h0
        refine ⟨hi, ?_⟩
        rw [hs.elite]
        simpa using h0.symm
    have hpl := p1.length_eq
    rw [poolOf_length ha, hrows.1, hrows.2] at hpl
    have hT : e.truncLen = 4 := by rw [hm.truncLen]; norm_num [Ex.diagonal, selLen, pyInt, Num.truncZ]
    have hline : onLine 2 (fun _ => 0) (fun _ => 1) [0, 2, 2, 0] = [[0, 0], [2, 2], [2, 2], [0, 0]] := by
      simp [onLine, List.range_succ]
    rw [hline, p3, List.take_of_length_le (by unfold sliceLen; rw [hT, hpl]; norm_num)]
    have := p1.map Prod.fst
    rwa [poolOf_eq ha, List.map_append, List.map_fst_zip (by rw [ha.1]), List.map_fst_zip (by rw [ha.2]), hrows.1,
      hrows.2] at this
  have hvar : Spec.variance [(0 : ℝ), 2, 2, 0] = 1 := by norm_num [Spec.variance, Spec.mean]
  have hline := fun w => C108_line (n := 2) (p := fun _ => 0) (d := fun _ => 1) (ts := [0, 2, 2, 0]) (by simp) w
  have hind : ∀ w, independentSpread 2 0 w s1'.gen.rows =
      independentSpread 2 0 w (onLine 2 (fun _ => 0) (fun _ => 1) [0, 2, 2, 0]) := by
    intro w
    unfold independentSpread
    refine Finset.sum_congr rfl fun j _ => ?_
    have hpj : (col s1'.gen.rows j).Perm (col (onLine 2 (fun _ => 0) (fun _ => 1) [0, 2, 2, 0]) j) := hp.map _
    rw [variance_perm hpj]
  refine ⟨s1, s1', hvis, htr, ?_, ?_, fun w hw => ?_⟩
  · rw [spread_perm hp, (hline _).1, hvar]; norm_num [Finset.sum_range_succ]
  · rw [spread_perm hp, (hline _).1, hvar]; norm_num [Finset.sum_range_succ]
  · obtain ⟨X, hX, _, hE⟩ := key w
    refine ⟨X, fun z => ?_, hE.trans ?_⟩
    · obtain ⟨r1, r2, h1, _, h3⟩ := hX z
      exact ⟨r1, r2, h1, h3⟩
    · refine (hind w).trans ?_
      rw [(hline w).2, hvar]
      simp only [List.mem_cons, List.not_mem_nil, or_false] at hw
      rcases hw with rfl | rfl <;> norm_num [Finset.sum_range_succ]

end Verif
