/-
What `UMDAc` and `PBIL` learn, as functions of the selected individuals: measurable and bounded.
-/
import Verif.Lemmas.ConvBox

namespace Verif

open PyCost Spec MeasureTheory ProbabilityTheory

variable {n : ℕ}

/-! ### Measurability -/

theorem meas_mean : Measurable (Spec.mean : List ℝ → ℝ) := by
  unfold Spec.mean
  have h1 : Measurable fun l : List ℝ => l.sum := by
    have := meas_sum (A := List ℝ) (F := fun l => l) (Φ := fun _ x => x) measurable_id measurable_snd
    simpa using this
  have h2 : Measurable fun l : List ℝ => (l.length : ℝ) :=
    measurable_from_top.comp (meas_length (F := fun l : List ℝ => l) measurable_id)
  exact h1.div h2

theorem meas_variance : Measurable (Spec.variance : List ℝ → ℝ) := by
  unfold Spec.variance
  refine meas_mean.comp (meas_map (F := fun l : List ℝ => l) (Φ := fun l x => (x - Spec.mean l) ^ 2) measurable_id ?_)
  exact (measurable_snd.sub (meas_mean.comp measurable_fst)).pow_const 2

theorem meas_column (j : Fin n) : Measurable fun P : List (Fin n → ℝ) => P.map fun r => r j :=
  meas_map (F := fun P : List (Fin n → ℝ) => P) (Φ := fun _ r => r j) measurable_id
    ((measurable_pi_apply j).comp measurable_snd)

/-- Adding fixed numbers to the rows. -/
def addRows (m : ℕ → ℕ → ℝ) (P : List (Fin n → ℝ)) : List (Fin n → ℝ) := P.mapIdx fun i r j => r j + m i j

theorem meas_addRows (m : ℕ → ℕ → ℝ) : Measurable (addRows (n := n) m) := by
  refine meas_list ?_ fun i => ?_
  · simp only [addRows, List.length_mapIdx]
    exact meas_length (F := fun P : List (Fin n → ℝ) => P) measurable_id
  · have : (fun P : List (Fin n → ℝ) => (addRows m P).getD i default) = fun P : List (Fin n → ℝ) =>
        if i < P.length then (fun j => P.getD i default j + m i j) else default := by
      funext P
      split
      · rename_i h; simp [addRows, List.getD_eq_getElem?_getD, h]
      · rename_i h; simp [addRows, List.getD_eq_getElem?_getD, h]
    rw [this]
    refine Measurable.ite (measurableSet_lt measurable_const
      (meas_length (F := fun P : List (Fin n → ℝ) => P) measurable_id)) ?_ measurable_const
    refine measurable_pi_iff.2 fun j => ?_
    exact ((measurable_pi_apply j).comp (meas_getD (F := fun P : List (Fin n → ℝ) => P) measurable_id i)).add
      measurable_const

/-- The mean of a variable of the rows with noise. -/
noncomputable def learnMean (m : ℕ → ℕ → ℝ) (P : List (Fin n → ℝ)) (j : Fin n) : ℝ :=
  Spec.mean ((addRows m P).map fun r => r j)

/-- The deviation of a variable of the rows with noise, at least `lb`. -/
noncomputable def learnDev (lb : ℝ) (m : ℕ → ℕ → ℝ) (P : List (Fin n → ℝ)) (j : Fin n) : ℝ :=
  max (Real.sqrt (Spec.variance ((addRows m P).map fun r => r j))) lb

/-- The mean learned by `PBIL`. -/
noncomputable def learnShift (alpha : ℝ) (m : ℕ → ℕ → ℝ) (P : List (Fin n → ℝ)) (j : Fin n) : ℝ :=
  (1 - alpha) * learnMean m P j + alpha * ((addRows m P).getD 0 default j + (addRows m P).getD 1 default j -
    (addRows m P).getD ((addRows m P).length - 1) default j)

theorem meas_learnMean (m : ℕ → ℕ → ℝ) (j : Fin n) : Measurable fun P => learnMean m P j :=
  meas_mean.comp ((meas_column j).comp (meas_addRows m))

theorem meas_learnDev (lb : ℝ) (m : ℕ → ℕ → ℝ) (j : Fin n) : Measurable fun P => learnDev lb m P j :=
  (Real.continuous_sqrt.measurable.comp (meas_variance.comp ((meas_column j).comp (meas_addRows m)))).max
    measurable_const

theorem meas_learnShift (alpha : ℝ) (m : ℕ → ℕ → ℝ) (j : Fin n) : Measurable fun P => learnShift alpha m P j := by
  have hk : ∀ k : List (Fin n → ℝ) → ℕ, Measurable k → Measurable fun P => (addRows m P).getD (k P) default j := by
    intro k hk
    exact (measurable_pi_apply j).comp (meas_getD' (meas_addRows m) hk)
  unfold learnShift
  refine (measurable_const.mul (meas_learnMean m j)).add (measurable_const.mul ?_)
  exact ((hk _ measurable_const).add (hk _ measurable_const)).sub
    (hk _ ((measurable_from_top (f := fun k : ℕ => k - 1)).comp (meas_length (meas_addRows m))))

/-! ### Bounds -/

theorem mean_abs {l : List ℝ} {M : ℝ} (h0 : 0 ≤ M) (h : ∀ x ∈ l, |x| ≤ M) : |Spec.mean l| ≤ M := by
  have hsum : |l.sum| ≤ l.length * M := by
    induction l with
    | nil => simp
    | cons a l ih =>
      have := ih fun x hx => h x (List.mem_cons_of_mem _ hx)
      have ha := h a List.mem_cons_self
      simp only [List.sum_cons, List.length_cons]
      push_cast
      refine (abs_add_le _ _).trans ?_
      linarith
  unfold Spec.mean
  rw [abs_div]
  rcases Nat.eq_zero_or_pos l.length with hl | hl
  · rw [hl]; simpa using h0
  · have : (0 : ℝ) < l.length := by exact_mod_cast hl
    rw [abs_of_pos this, div_le_iff₀ this]
    linarith

theorem dev_abs {l : List ℝ} {M : ℝ} (h0 : 0 ≤ M) (h : ∀ x ∈ l, |x| ≤ M) :
    Real.sqrt (Spec.variance l) ≤ 2 * M := by
  have hm := mean_abs h0 h
  rw [Real.sqrt_le_left (by linarith)]
  unfold Spec.variance
  refine (le_abs_self _).trans (mean_abs (by positivity) ?_)
  intro y hy
  obtain ⟨x, hx, rfl⟩ := List.mem_map.1 hy
  rw [abs_pow]
  have : |x - Spec.mean l| ≤ 2 * M := (abs_sub _ _).trans (by linarith [h x hx])
  exact pow_le_pow_left₀ (abs_nonneg _) this 2

theorem addRows_abs {m : ℕ → ℕ → ℝ} {P : List (Fin n → ℝ)} {M B : ℝ} (hP : ∀ r ∈ P, ∀ j, |r j| ≤ M)
    (hm : ∀ i < P.length, ∀ j < n, |m i j| ≤ B) : ∀ r ∈ addRows m P, ∀ j, |r j| ≤ M + B := by
  intro r hr j
  obtain ⟨i, hi, rfl⟩ := List.mem_mapIdx.1 hr
  refine (abs_add_le _ _).trans ?_
  exact add_le_add (hP _ (List.getElem_mem _) j) (hm i hi j j.2)

/-- The noise of one run is bounded. -/
theorem noise_bounded (m : ℕ → ℕ → ℝ) (k n : ℕ) : ∃ B, 0 ≤ B ∧ ∀ i < k, ∀ j < n, |m i j| ≤ B := by
  refine ⟨∑ i ∈ Finset.range k, ∑ j ∈ Finset.range n, |m i j|,
    Finset.sum_nonneg fun _ _ => Finset.sum_nonneg fun _ _ => abs_nonneg _, fun i hi j hj => ?_⟩
  refine le_trans ?_ (Finset.single_le_sum (f := fun i => ∑ j ∈ Finset.range n, |m i j|)
    (fun _ _ => Finset.sum_nonneg fun _ _ => abs_nonneg _) (Finset.mem_range.2 hi))
  exact Finset.single_le_sum (f := fun j => |m i j|) (fun _ _ => abs_nonneg _) (Finset.mem_range.2 hj)

theorem learn_abs {m : ℕ → ℕ → ℝ} {P : List (Fin n → ℝ)} {M : ℝ} (h0 : 0 ≤ M)
    (h : ∀ r ∈ addRows m P, ∀ j, |r j| ≤ M) (lb alpha : ℝ) (j : Fin n) :
    |learnMean m P j| ≤ M ∧ learnDev lb m P j ≤ max (2 * M) lb ∧
    |learnShift alpha m P j| ≤ |1 - alpha| * M + |alpha| * (3 * M) := by
  have hcol : ∀ x ∈ (addRows m P).map (fun r => r j), |x| ≤ M := by
    intro x hx
    obtain ⟨r, hr, rfl⟩ := List.mem_map.1 hx
    exact h r hr j
  have h1 : |learnMean m P j| ≤ M := mean_abs h0 hcol
  refine ⟨h1, max_le_max_right _ (dev_abs h0 hcol), ?_⟩
  have hk : ∀ k, |(addRows m P).getD k default j| ≤ M := by
    intro k
    rw [List.getD_eq_getElem?_getD]
    cases hg : (addRows m P)[k]? with
    | none =>
      have : (default : ℝ) = 0 := rfl
      simpa [Pi.default_apply, this] using h0
    | some r => exact h r (List.mem_of_getElem? hg) j
  unfold learnShift
  refine (abs_add_le _ _).trans ?_
  rw [abs_mul, abs_mul]
  refine add_le_add (mul_le_mul_of_nonneg_left h1 (abs_nonneg _)) (mul_le_mul_of_nonneg_left ?_ (abs_nonneg _))
  have := abs_sub ((addRows m P).getD 0 default j + (addRows m P).getD 1 default j)
    ((addRows m P).getD ((addRows m P).length - 1) default j)
  have h2 := abs_add_le ((addRows m P).getD 0 default j) ((addRows m P).getD 1 default j)
  linarith [hk 0, hk 1, hk ((addRows m P).length - 1)]

/-! ### Learning in the model -/

/-- The numbers that the white noise adds. -/
def noiseTable : Noise ℝ → ℕ → ℕ → ℝ
  | .matrix t c m => fun i j => m (if t = 1 then 0 else i) (if c = 1 then 0 else j)
  | _ => fun _ _ => 0

theorem addNoise_rows {nz : Noise ℝ} {gen noisy : Gen (List ℝ)} {P : List (Fin n → ℝ)}
    (hg : gen.rows = P.map List.ofFn) (h : addNoise nz gen = .ok noisy) :
    noisy.rows = (addRows (noiseTable nz) P).map List.ofFn := by
  have hzero : (addRows (fun _ _ => 0) P) = P := by
    unfold addRows
    apply List.ext_getElem?
    intro i
    simp only [add_zero, List.getElem?_mapIdx]
    cases P[i]? <;> rfl
  unfold addNoise at h
  cases nz with
  | zero =>
    cases hd : gen.dt <;> simp only [hd] at h
    · obtain rfl := Except.ok.inj h; rw [hg]; simp only [noiseTable, hzero]
    · obtain rfl := Except.ok.inj h; rw [hg]; simp only [noiseTable, hzero]
    · cases h
  | emptyStr => cases hd : gen.dt <;> simp [hd] at h
  | matrix t c m =>
    cases hd : gen.dt <;> simp only [hd] at h
    · cases h
    · split at h
      · obtain rfl := Except.ok.inj h
        simp only [hg, noiseTable]
        apply List.ext_getElem?
        intro i
        simp only [List.getElem?_mapIdx, List.getElem?_map, addRows]
        cases P[i]? with
        | none => rfl
        | some r =>
          simp only [Option.map_some, Option.some.injEq, addNoiseRow]
          apply List.ext_getElem?
          intro j
          rw [List.getElem?_mapIdx, List.getElem?_ofFn, List.getElem?_ofFn]
          by_cases hj : j < n <;> simp [hj]
      · cases h
    · cases h

theorem col_ofFn (P : List (Fin n → ℝ)) (j : Fin n) : col (P.map List.ofFn) (j : ℕ) = P.map fun r => r j := by
  unfold col
  rw [List.map_map]
  refine List.map_congr_left fun r _ => ?_
  simp [List.getD_eq_getElem?_getD]

theorem learnsBy_umdac (hn : 0 < n) (lb : ℝ) (nz : Noise ℝ) :
    LearnsBy n lb (addNoise nz) (fun b g _ (_ : Draws ℝ) => b.learn Real.sqrt g)
      (learnMean (noiseTable nz)) (learnDev lb (noiseTable nz)) := by
  intro pm gen noisy el ω pm' P h1 h2 hg hnz hl
  refine ⟨(floors_learn real_isSqrt hn lb pm noisy el ω pm' h1 h2 hl).1, fun j => ?_⟩
  have hrows := addNoise_rows hg hnz
  have h0 : pm.n ≠ 0 := by omega
  simp only at hl
  unfold UniGauss.learn at hl
  rw [if_neg h0] at hl
  split at hl
  · cases hl
  split at hl
  · cases hl
  obtain rfl := Except.ok.inj hl
  have hj : (j : ℕ) < pm.n := by rw [h1]; exact j.2
  simp only [List.getD_eq_getElem?_getD, List.getElem?_map, List.getElem?_range hj, Option.map_some, Option.getD_some,
    colMean_eq, colStd_eq, floorStd_eq, hrows, col_ofFn, h2]
  exact ⟨rfl, rfl⟩

theorem learnsBy_pbil (hn : 0 < n) (lb alpha : ℝ) (nz : Noise ℝ) :
    LearnsBy n lb (addNoise nz) (fun b g _ (_ : Draws ℝ) => b.learnAdapt Real.sqrt alpha g)
      (learnShift alpha (noiseTable nz)) (learnDev lb (noiseTable nz)) := by
  intro pm gen noisy el ω pm' P h1 h2 hg hnz hl
  refine ⟨(floors_learnAdapt real_isSqrt hn lb alpha pm noisy el ω pm' h1 h2 hl).1, fun j => ?_⟩
  have hrows := addNoise_rows hg hnz
  have h0 : pm.n ≠ 0 := by omega
  simp only at hl
  unfold UniGauss.learnAdapt at hl
  rw [if_neg h0] at hl
  split at hl
  · cases hl
  split at hl
  swap
  · cases hl
  rename_i r0 r1 rl e0 e1 el'
  obtain rfl := Except.ok.inj hl
  have hj : (j : ℕ) < pm.n := by rw [h1]; exact j.2
  rw [List.getLast?_eq_getElem?] at el'
  have key : ∀ k r, noisy.rows[k]? = some r → r.getD j 0 = (addRows (noiseTable nz) P).getD k default j := by
    intro k r hk
    rw [hrows, List.getElem?_map] at hk
    rw [List.getD_eq_getElem?_getD (l := addRows _ P)]
    cases hq : (addRows (noiseTable nz) P)[k]? with
    | none => rw [hq] at hk; cases hk
    | some q =>
      rw [hq] at hk
      simp only [Option.map_some, Option.some.injEq] at hk
      rw [← hk]
      simp [List.getD_eq_getElem?_getD]
  have hlen : noisy.rows.length = (addRows (noiseTable nz) P).length := by rw [hrows, List.length_map]
  have k0 := key _ _ e0
  have k1 := key _ _ e1
  have k2 := key _ _ el'
  rw [hlen] at k2
  simp only [List.getD_eq_getElem?_getD (l := List.map _ _), List.getElem?_map, List.getElem?_range hj, Option.map_some,
    Option.getD_some, colMean_eq, colStd_eq, floorStd_eq, hrows, col_ofFn, h2, k0, k1, k2]
  exact ⟨rfl, rfl⟩

end Verif
