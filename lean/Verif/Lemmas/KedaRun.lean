/-
When `UnivariateKEDA` can learn from a generation, and which region a generation can reach.
-/
import Verif.Lemmas.GenPos
import Verif.Props.Longer

set_option linter.unusedSectionVars false

namespace Verif

open PyCost Spec MeasureTheory ProbabilityTheory

/-! ### Selection -/

theorem takeIdx_map_some {α : Type} {rows : List α} {l : List ℕ} (hl : ∀ i ∈ l, i < rows.length) :
    (takeIdx rows l).map some = l.map fun i => rows[i]? := by
  unfold takeIdx
  induction l with
  | nil => rfl
  | cons i l ih =>
    have hi := hl i List.mem_cons_self
    simp only [List.filterMap_cons, List.getElem?_eq_getElem hi, List.map_cons]
    rw [ih fun i hi => hl i (List.mem_cons_of_mem _ hi)]

section select
variable {R C σ Ω : Type} [PyCost C] {env : Env C} {e : Eda R σ Ω}

/-- If more individuals are selected than there are in the elite, some of them are new. -/
theorem trunc_new_rows (hv : env.Valid) {s s1 : St R C σ} (ha : Aligned s) (h : truncation env e s = .ok s1) {m : ℕ}
    (hlen : m + s.elite.rows.length ≤ s1.gen.rows.length) :
    ∃ idx pos : Fin m → ℕ, Function.Injective idx ∧ ∀ a, idx a < s.gen.rows.length ∧
      ∃ r, s.gen.rows[idx a]? = some r ∧ s1.gen.rows[pos a]? = some r := by
  unfold truncation Gen.concat at h
  split at h
  · simp at h
  rename_i gen hg
  split at hg
  swap
  · simp at hg
  simp only [Except.ok.injEq] at hg h
  subst hg
  have hrows : s1.gen.rows = takeIdx (s.gen.rows ++ s.elite.rows)
      (sliceTo (env.argsort (s.evals ++ s.evalsElite)) e.truncLen) := by rw [← h]; rfl
  have hperm := hv.argsort.perm (s.evals ++ s.evalsElite)
  set o := env.argsort (s.evals ++ s.evalsElite) with ho
  have hnd : o.Nodup := hperm.nodup_iff.2 List.nodup_range
  have hmem : ∀ i ∈ o, i < s.gen.rows.length + s.elite.rows.length := by
    intro i hi
    have := List.mem_range.1 (hperm.subset hi)
    have h1 := ha.1; have h2 := ha.2
    simp only [List.length_append] at this
    omega
  rw [sliceTo_eq_take] at hrows
  set l := o.take (sliceLen o.length e.truncLen) with hl
  have hlnd : l.Nodup := hnd.sublist (List.take_sublist _ _)
  have hlmem : ∀ i ∈ l, i < s.gen.rows.length + s.elite.rows.length := fun i hi => hmem i (List.take_subset _ _ hi)
  have hget : ∀ p (hp : p < l.length), s1.gen.rows[p]? = (s.gen.rows ++ s.elite.rows)[l[p]]? := by
    intro p hp
    have hmap : s1.gen.rows.map some = l.map fun i => (s.gen.rows ++ s.elite.rows)[i]? := by
      rw [hrows]; exact takeIdx_map_some fun i hi => by rw [List.length_append]; exact hlmem i hi
    have := congrArg (fun l => l[p]?) hmap
    simp only [List.getElem?_map, List.getElem?_eq_getElem hp, Option.map_some] at this
    rcases hr : s1.gen.rows[p]? with _ | r
    · rw [hr] at this; simp at this
    · rw [hr] at this; simpa using this
  have hlen' : s1.gen.rows.length = l.length := by
    have := congrArg List.length (takeIdx_map_some (rows := s.gen.rows ++ s.elite.rows) (l := l) fun i hi => by
      rw [List.length_append]; exact hlmem i hi)
    simpa [← hrows] using this
  set F : Finset ℕ := l.toFinset.filter (· < s.gen.rows.length) with hF
  have hcard : m ≤ F.card := by
    have h1 : l.toFinset.card = l.length := List.toFinset_card_of_nodup hlnd
    have h2 : (l.toFinset.filter fun i => ¬ i < s.gen.rows.length).card ≤ s.elite.rows.length := by
      refine (Finset.card_le_card (t := Finset.Ico s.gen.rows.length (s.gen.rows.length + s.elite.rows.length)) ?_).trans ?_
      · intro i hi
        obtain ⟨hi1, hi2⟩ := Finset.mem_filter.1 hi
        exact Finset.mem_Ico.2 ⟨not_lt.1 hi2, hlmem i (List.mem_toFinset.1 hi1)⟩
      · simp
    have h3 := Finset.card_filter_add_card_filter_not (s := l.toFinset) (fun i => i < s.gen.rows.length)
    rw [hF]
    omega
  obtain ⟨G, hGF, hG⟩ := Finset.exists_subset_card_eq hcard
  let E := G.equivFinOfCardEq hG
  have hin : ∀ a, ((E.symm a : G) : ℕ) ∈ l ∧ ((E.symm a : G) : ℕ) < s.gen.rows.length := by
    intro a
    obtain ⟨h1, h2⟩ := Finset.mem_filter.1 (hGF (E.symm a).2)
    exact ⟨List.mem_toFinset.1 h1, h2⟩
  refine ⟨fun a => ((E.symm a : G) : ℕ), fun a => l.idxOf ((E.symm a : G) : ℕ),
    fun a b hab => E.symm.injective (Subtype.ext hab), fun a => ⟨(hin a).2, ?_⟩⟩
  refine ⟨s.gen.rows[((E.symm a : G) : ℕ)]'(hin a).2, List.getElem?_eq_getElem _, ?_⟩
  have hp := List.idxOf_lt_length_iff.2 (hin a).1
  rw [hget _ hp, List.getElem_idxOf, List.getElem?_append_left (hin a).2, List.getElem?_eq_getElem]

end select

/-! ### White noise -/

/-- White noise shifts the individual in place `p` by a vector that depends on `p` only. -/
theorem addNoise_shift {n : ℕ} {w : ℝ} {k : ℤ} {m : Draws ℝ} {nz : Noise ℝ} (hnz : mkWhiteNoise w k n m = .ok nz) :
    ∃ sh : ℕ → ℕ → ℝ, ∀ g g' : Gen (List ℝ), addNoise nz g = .ok g' → g'.cols = g.cols ∧
      g'.rows.length = g.rows.length ∧ ∀ (p : ℕ) (r : List ℝ), g.rows[p]? = some r →
        ∃ r', g'.rows[p]? = some r' ∧ ∀ j < r.length, r'.getD j 0 = r.getD j 0 + sh p j := by
  unfold mkWhiteNoise at hnz
  split at hnz
  · refine ⟨fun _ _ => 0, fun g g' h => ?_⟩
    rw [← Except.ok.inj hnz] at h
    rw [addNoise_zero_eq h]
    exact ⟨rfl, rfl, fun p r hr => ⟨r, hr, fun j _ => by simp⟩⟩
  split at hnz
  · refine ⟨fun _ _ => 0, fun g g' h => ?_⟩
    rw [← Except.ok.inj hnz] at h
    unfold addNoise at h
    simp only at h
    split at h <;> simp at h
  split at hnz
  · simp at hnz
  split at hnz
  · simp at hnz
  refine ⟨fun p j => m (if k.toNat = 1 then 0 else p) (if n = 1 then 0 else j), fun g g' h => ?_⟩
  rw [← Except.ok.inj hnz] at h
  unfold addNoise at h
  simp only at h
  split at h
  · simp at h
  · simp at h
  split at h
  · rw [← Except.ok.inj h]
    refine ⟨rfl, by simp, fun p r hr => ?_⟩
    refine ⟨addNoiseRow n m (if k.toNat = 1 then 0 else p) r, by simp [hr], fun j hj => ?_⟩
    rw [List.getD_eq_getElem?_getD, List.getD_eq_getElem?_getD, addNoiseRow, List.getElem?_mapIdx,
      List.getElem?_eq_getElem hj]
    rfl
  · simp at h

/-! ### Learning -/

section learn
variable {isPD : List (List ℝ) → Bool} {h2 : ℕ → ℕ → ℝ}

/-- Points that do not lie in a hyperplane have a positive definite covariance matrix. -/
theorem cov_pd_of_genPos {rows : List (List ℝ)} {n : ℕ} (hr : 2 ≤ rows.length) {x : Fin (n + 1) → List ℝ}
    (hx : ∀ a, x a ∈ rows) (h : GeneralPosition fun a (j : Fin n) => (x a).getD j 0) :
    PD n (fun i j => covariance (col rows i) (col rows j)) := by
  have hcov : (fun i j => covariance (col rows i) (col rows j)) = covEntry rows := by
    funext i j; rw [covEntry_eq]
  rw [hcov]
  rintro v ⟨i, hi, hvi⟩
  refine lt_of_le_of_ne (cov_psd (by omega) n v) fun h0 => hvi ?_
  rw [cov_form] at h0
  have hN : (0 : ℝ) < (rows.length : ℝ) - 1 := by
    have : (2 : ℝ) ≤ rows.length := by exact_mod_cast hr
    linarith
  have hsum : (rows.map (fun r => (∑ i ∈ Finset.range n, (r.getD i 0 - colMean rows i) * v i) ^ 2)).sum = 0 := by
    rcases div_eq_zero_iff.1 h0.symm with h | h
    · exact h
    · exact absurd h hN.ne'
  have hall : ∀ r ∈ rows, ∑ i ∈ Finset.range n, (r.getD i 0 - colMean rows i) * v i = 0 := by
    intro r hr
    have hnn : ∀ y ∈ rows.map (fun r => (∑ i ∈ Finset.range n, (r.getD i 0 - colMean rows i) * v i) ^ 2), 0 ≤ y := by
      intro y hy
      obtain ⟨_, _, rfl⟩ := List.mem_map.1 hy
      exact sq_nonneg _
    have hle := List.single_le_sum hnn _ (List.mem_map.2 ⟨r, hr, rfl⟩)
    rw [hsum] at hle
    exact pow_eq_zero_iff two_ne_zero |>.1 (le_antisymm hle (sq_nonneg _))
  have := h (fun j => v j) (∑ i ∈ Finset.range n, colMean rows i * v i) fun a => by
    have h1 := hall (x a) (hx a)
    simp only [sub_mul, Finset.sum_sub_distrib] at h1
    rw [sub_eq_zero, Finset.sum_range] at h1
    rw [← h1]
    exact Finset.sum_congr rfl fun j _ => mul_comm _ _
  exact congrFun this ⟨i, hi⟩

/-- If enough new individuals are selected and all choices of new individuals are in general position, then the
model can be learned. -/
theorem learn_new_rows {C Ω : Type} [PyCost C] {env : Env C} {e : Eda (List ℝ) (UniKDE ℝ) Ω} (hv : env.Valid)
    {s s1 : St (List ℝ) C (UniKDE ℝ)} (ha : Aligned s) (h : truncation env e s = .ok s1) {n : ℕ} (hn : 1 ≤ n)
    (hcols : s.gen.cols = n) (hrect : ∀ r ∈ s.gen.rows, r.length = n)
    (hlen : n + 1 + s.elite.rows.length ≤ s1.gen.rows.length) {noisy : Gen (List ℝ)} {sh : ℕ → ℕ → ℝ}
    (hsh : noisy.cols = s1.gen.cols ∧ noisy.rows.length = s1.gen.rows.length ∧
      ∀ (p : ℕ) (r : List ℝ), s1.gen.rows[p]? = some r →
        ∃ r', noisy.rows[p]? = some r' ∧ ∀ j < r.length, r'.getD j 0 = r.getD j 0 + sh p j)
    (hgp : ∀ idx pos : Fin (n + 1) → ℕ, Function.Injective idx → (∀ a, idx a < s.gen.rows.length) →
      GeneralPosition fun a (j : Fin n) => (s.gen.rows.getD (idx a) []).getD j 0 + sh (pos a) j)
    (hp : PosDefTest n isPD) (pm : UniKDE ℝ) : ∃ pm', pm.learn isPD h2 noisy = .ok pm' := by
  obtain ⟨idx, pos, hinj, hsel⟩ := trunc_new_rows hv ha h hlen
  have hc : noisy.cols = n := by rw [hsh.1, (truncation_shape h).2.1, hcols]
  have hr : 2 ≤ noisy.rows.length := by rw [hsh.2.1]; omega
  have hg := hgp idx pos hinj fun a => (hsel a).1
  choose hlt r hr1 hr2 using hsel
  choose r' hr'1 hr'2 using fun a => hsh.2.2 (pos a) (r a) (hr2 a)
  subst hc
  refine (C60_learn hr hn hp).1 (cov_pd_of_genPos hr (x := r') (fun a => List.mem_of_getElem? (hr'1 a)) ?_)
  convert hg using 3 with a j
  rw [hr'2 a j (by rw [hrect _ (List.mem_of_getElem? (hr1 a))]; exact j.2), List.getD_eq_getElem?_getD (l := s.gen.rows),
    hr1 a]
  rfl

end learn

/-! ### Runs -/

section run
variable {R C σ Ω : Type} [PyCost C] {env : Env C} {e : Eda R σ Ω} {f : ℕ → R → C} {ftol : C} {pm : σ} {ρ : Rand Ω}

/-- Two ways of learning that agree on what a run learns from give the same run. -/
theorem minimize_congr_learn {up : σ → Gen R → Gen R → Ω → Except PyErr σ}
    (h : ∀ t s noise s1 noisy, Visited env e f ftol pm ρ t s → (t : ℤ) < e.maxIter → e.mkNoise ρ.noise = .ok noise →
      truncation env e s = .ok s1 → noise s1.gen = .ok noisy →
      up s1.pm noisy s1.elite (ρ.learn t) = e.updatePm s1.pm noisy s1.elite (ρ.learn t)) :
    minimize env { e with updatePm := up } f ftol pm ρ = minimize env e f ftol pm ρ := by
  unfold minimize
  have h0 : start env { e with updatePm := up } f pm ρ = start env e f pm ρ := rfl
  rw [h0]
  rcases hs : start env e f pm ρ with err | s0
  · rfl
  dsimp only
  rcases hn : e.mkNoise ρ.noise with err | noise
  · rfl
  dsimp only
  have hloop : ∀ (n t : ℕ) s, Visited env e f ftol pm ρ t s → (t : ℤ) + n ≤ max e.maxIter t →
      loop env { e with updatePm := up } f ftol ρ noise n t s = loop env e f ftol ρ noise n t s := by
    intro n
    induction n with
    | zero => intro t s _ _; rfl
    | succ n ih =>
      intro t s hvis hle
      have ht : (t : ℤ) < e.maxIter := by
        push_cast at hle
        rcases le_total e.maxIter t with hmx | hmx
        · rw [max_eq_right hmx] at hle; omega
        · rw [max_eq_left hmx] at hle; omega
      have hstep : step env { e with updatePm := up } f ftol ρ noise t s = step env e f ftol ρ noise t s := by
        have htr : truncation env { e with updatePm := up } s = truncation env e s := rfl
        unfold step
        rw [htr]
        rcases h1 : truncation env e s with err | s1
        · rfl
        dsimp only
        rcases h2 : noise s1.gen with err | noisy
        · rfl
        dsimp only
        rw [h t s noise s1 noisy hvis ht hn h1 h2]
      unfold loop
      rw [hstep]
      rcases hst : step env e f ftol ρ noise t s with err | ⟨s', b⟩
      · rfl
      cases b
      · refine ih (t + 1) s' (.next hvis hn hst) ?_
        push_cast at hle ⊢
        rw [max_eq_left ht.le] at hle
        exact (show (t : ℤ) + 1 + n ≤ e.maxIter by omega).trans (le_max_left _ _)
      · rfl
  rw [hloop _ 1 s0 (.first hs) (by rw [Nat.cast_one]; omega)]

/-- In a run that returns, every pass that was reached succeeded. -/
theorem loop_pass_ok (noise : Gen R → Except PyErr (Gen R)) (hn : e.mkNoise ρ.noise = .ok noise) :
    ∀ n t0 s0 s', Visited env e f ftol pm ρ t0 s0 → loop env e f ftol ρ noise n t0 s0 = .ok s' →
      ∀ t s, Visited env e f ftol pm ρ t s → t0 ≤ t → t < t0 + n →
        ∃ s2 b, step env e f ftol ρ noise t s = .ok (s2, b) ∧ s2.log <+: s'.log := by
  intro n
  induction n with
  | zero => intro t0 s0 s' _ _ t s _ h1 h2; omega
  | succ n ih =>
    intro t0 s0 s' hv0 hl t s hvt h1 h2
    unfold loop at hl
    rcases hst : step env e f ftol ρ noise t0 s0 with err | ⟨s1, b⟩
    · rw [hst] at hl; simp at hl
    rw [hst] at hl
    rcases Nat.lt_or_ge t0 t with hlt | hge
    · cases b
      · exact ih (t0 + 1) s1 s' (.next hv0 hn hst) hl t s hvt hlt (by omega)
      · exfalso
        have hno : ∀ {t' s'}, Visited env e f ftol pm ρ t' s' → t0 < t' → False := by
          intro t' s' hv'
          induction hv' with
          | first h0 => intro hlt'; have := visited_pos hv0; omega
          | @next t2 s2 s3 nz hv2 hn2 hst2 ih2 =>
            intro hlt'
            rcases Nat.lt_or_ge t0 t2 with h3 | h3
            · exact ih2 h3
            · have : t2 = t0 := by omega
              subst this
              rw [hn] at hn2
              obtain rfl := Except.ok.inj hn2
              rw [visited_unique hv2 hv0, hst] at hst2
              simp at hst2
        exact hno hvt hlt
    · have : t = t0 := by omega
      subst this
      rw [visited_unique hvt hv0]
      refine ⟨s1, b, hst, ?_⟩
      cases b
      · exact (loop_prefix noise _ _ _ _ hl).2
      · rw [← Except.ok.inj hl]

end run

end Verif
