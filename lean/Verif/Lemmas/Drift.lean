/-
Runs whose population becomes uniform: the selection of a uniform population, and the probability that no pass
of the loop makes the population uniform.
-/
import Verif.Lemmas.Adaptive
import Verif.Props.Leave

set_option linter.unusedSectionVars false

namespace Verif

open PyCost Spec MeasureTheory

section
variable {R σ Ω : Type} {env : Env ℝ} {e : Eda R σ Ω} {g : R → ℝ} {ftol : ℝ} {pm : σ} {ρ : Rand Ω}

namespace Spec

/-- From generation `T` on (the first one has number 0) all individuals are the individual `x`. -/
def SettledFrom {C : Type} (T : ℕ) (x : R) (s : St R C σ) : Prop :=
  ∀ t batch, T ≤ t → s.log[t]? = some batch → ∀ p ∈ batch, p.1 = x

/-- `argsort` keeps the order of equal costs. -/
def StableSort (argsort : List ℝ → List ℕ) : Prop :=
  ∀ cs, (argsort cs).Pairwise (fun i j => cs[i]? = cs[j]? → i < j)

/-- Ties do no harm: different individuals of the kind `Q` have different costs, or `argsort` is stable. -/
def TiesHarmless (env : Env ℝ) (g : R → ℝ) (Q : R → Prop) : Prop :=
  Set.InjOn g {r | Q r} ∨ StableSort env.argsort

/-- No individual evaluated in the run has a smaller cost than `x`. -/
def BestOfRun (g : R → ℝ) (x : R) (s : St R ℝ σ) : Prop := ∀ p ∈ s.log.flatten, g x ≤ g p.1

end Spec

/-- What is known of all states of the run. -/
structure DriftInv (e : Eda R σ Ω) (g : R → ℝ) (Q : R → Prop) (I : σ → Prop) (s : St R ℝ σ) : Prop where
  evals : s.evals = s.gen.rows.map g
  evalsElite : s.evalsElite = s.elite.rows.map g
  rowsGen : ∀ r ∈ s.gen.rows, Q r
  rowsElite : ∀ r ∈ s.elite.rows, Q r
  nonempty : s.gen.rows ≠ []
  pm : I s.pm
  best : 1 ≤ e.eliteLen → ∀ p ∈ s.log.flatten, ∃ r ∈ s.gen.rows ++ s.elite.rows, g r ≤ g p.1

/-- The generation consists of copies of `x`, and `x` is not worse than the elite (and, if there are elite
slots, than anything evaluated). -/
structure Settled (e : Eda R σ Ω) (g : R → ℝ) (x : R) (s : St R ℝ σ) : Prop where
  gen : ∀ r ∈ s.gen.rows, r = x
  size : e.truncLen ≤ s.gen.rows.length
  elite : ∀ r ∈ s.elite.rows, g x ≤ g r
  best : 1 ≤ e.eliteLen → BestOfRun g x s

theorem DriftInv.aligned {Q : R → Prop} {I : σ → Prop} {s : St R ℝ σ} (h : DriftInv e g Q I s) : Aligned s := by
  constructor
  · rw [h.evals]; simp
  · rw [h.evalsElite]; simp

theorem DriftInv.pool {Q : R → Prop} {I : σ → Prop} {s : St R ℝ σ} (h : DriftInv e g Q I s) :
    poolOf s = (s.gen.rows ++ s.elite.rows).map (fun r => (r, g r)) := by
  unfold poolOf
  rw [h.evals, h.evalsElite, ← List.map_append]
  induction s.gen.rows ++ s.elite.rows with
  | nil => rfl
  | cons a l ih => simp only [List.map_cons, List.zip_cons_cons, ih]

/-- The selection, as a list of individuals: a sorted permutation of generation and elite, cut off. -/
theorem DriftInv.selection (hv : env.Valid) {Q : R → Prop} {I : σ → Prop} {s s1 : St R ℝ σ}
    (h : DriftInv e g Q I s) (ht : truncation env e s = .ok s1) :
    ∃ W : List R, W.Perm (s.gen.rows ++ s.elite.rows) ∧ W.Pairwise (fun a b => g a ≤ g b) ∧
      s1.gen.rows = W.take (sliceLen W.length e.truncLen) ∧
      s1.elite.rows = W.take (sliceLen W.length e.eliteLen) ∧
      s1.evalsElite = s1.elite.rows.map g := by
  obtain ⟨P, h1, h2, h3, _, h5, h6⟩ := truncation_ok hv h.aligned ht
  rw [h.pool] at h1
  have hP : ∀ p ∈ P, p.2 = g p.1 := by
    intro p hp
    obtain ⟨r, _, rfl⟩ := List.mem_map.1 (h1.subset hp)
    rfl
  refine ⟨P.map Prod.fst, ?_, ?_, ?_, ?_, ?_⟩
  · have := h1.map Prod.fst
    simpa [Function.comp_def] using this
  · rw [List.pairwise_map]
    refine (List.pairwise_iff_getElem.2 ?_)
    intro i j hi hj hij
    have := (List.pairwise_iff_getElem.1 h2 i j hi hj hij).1
    rw [hP _ (List.getElem_mem _), hP _ (List.getElem_mem _)] at this
    simpa [PyCost.lt] using this
  · rw [h3, List.map_take, List.length_map]
  · rw [h5, List.map_take, List.length_map]
  · rw [h6, h5, List.map_map]
    exact List.map_congr_left fun p hp => hP p (List.mem_of_mem_take hp)

/-- Some selected individual is a best one of generation and elite; with elite slots it is in the elite. -/
theorem DriftInv.first (hv : env.Valid) {Q : R → Prop} {I : σ → Prop} {s s1 : St R ℝ σ}
    (h : DriftInv e g Q I s) (htr : 1 ≤ e.truncLen) (ht : truncation env e s = .ok s1) :
    ∃ x ∈ s1.gen.rows, (∀ r ∈ s.gen.rows ++ s.elite.rows, g x ≤ g r) ∧
      (1 ≤ e.eliteLen → x ∈ s1.elite.rows) := by
  obtain ⟨W, h1, h2, h3, h4, _⟩ := h.selection hv ht
  cases W with
  | nil =>
    have := h1.symm.eq_nil
    simp [h.nonempty] at this
  | cons x W =>
    refine ⟨x, ?_, ?_, ?_⟩
    · rw [h3]
      have : 1 ≤ sliceLen (x :: W).length e.truncLen := by
        unfold sliceLen; rw [if_pos (by omega)]; simp only [List.length_cons]; omega
      obtain ⟨m, hm⟩ := Nat.exists_eq_add_of_le' this
      rw [hm, List.take_succ_cons]; exact List.mem_cons_self
    · intro r hr
      rcases List.mem_cons.1 (h1.symm.subset hr) with rfl | hr
      · exact le_rfl
      · exact (List.pairwise_cons.1 h2).1 r hr
    · intro he
      rw [h4]
      have : 1 ≤ sliceLen (x :: W).length e.eliteLen := by
        unfold sliceLen; rw [if_pos (by omega)]; simp only [List.length_cons]; omega
      obtain ⟨m, hm⟩ := Nat.exists_eq_add_of_le' this
      rw [hm, List.take_succ_cons]; exact List.mem_cons_self

/-- From a uniform generation, not worse than the elite, only copies are selected if costs differ. -/
theorem Settled.selection_inj (hv : env.Valid) {Q : R → Prop} {I : σ → Prop} {s s1 : St R ℝ σ} {x : R}
    (hi : DriftInv e g Q I s) (h : Settled e g x s) (hg : Set.InjOn g {r | Q r}) (htr : 0 ≤ e.truncLen)
    (ht : truncation env e s = .ok s1) : ∀ r ∈ s1.gen.rows, r = x := by
  obtain ⟨W, h1, h2, h3, _, _⟩ := hi.selection hv ht
  have hQ : ∀ r ∈ W, Q r := by
    intro r hr
    rcases List.mem_append.1 (h1.subset hr) with h | h
    · exact hi.rowsGen r h
    · exact hi.rowsElite r h
  have hx : Q x := by
    obtain ⟨r, hr⟩ := List.exists_mem_of_ne_nil _ hi.nonempty
    rw [← h.gen r hr]; exact hi.rowsGen r hr
  intro r hr
  rw [h3] at hr
  obtain ⟨i, hil, rfl⟩ := List.mem_iff_getElem.1 hr
  rw [List.getElem_take]
  have hik : i < sliceLen W.length e.truncLen ∧ i < W.length := by
    rw [List.length_take] at hil; omega
  have hiN : i < s.gen.rows.length := by
    have := hik.1
    unfold sliceLen at this
    rw [if_pos htr] at this
    have := h.size
    omega
  refine hg (hQ _ (List.getElem_mem _)) hx ?_
  by_contra hne
  have hmin : ∀ r ∈ W, g x ≤ g r := by
    intro r hr
    rcases List.mem_append.1 (h1.subset hr) with h' | h'
    · rw [h.gen r h']
    · exact h.elite r h'
  have hlt : g x < g W[i] := lt_of_le_of_ne (hmin _ (List.getElem_mem _)) (Ne.symm hne)
  classical
  -- at most `i` individuals have the cost of `x`
  have hc1 : (W.filter (fun r => decide (g r = g x))).length ≤ i := by
    rw [← List.take_append_drop i W, List.filter_append, List.length_append]
    have h0 : (W.drop i).filter (fun r => decide (g r = g x)) = [] := by
      rw [List.filter_eq_nil_iff]
      intro r hr
      obtain ⟨j, hj, rfl⟩ := List.mem_iff_getElem.1 hr
      rw [List.getElem_drop]
      rcases Nat.eq_zero_or_pos j with rfl | hj0
      · simpa using hne
      · have := List.pairwise_iff_getElem.1 h2 i (i + j) hik.2 (by rw [List.length_drop] at hj; omega)
          (by omega)
        simpa using (hlt.trans_le this).ne'
    rw [h0, List.length_nil, Nat.add_zero]
    exact (List.length_filter_le _ _).trans (List.length_take_le _ _)
  have hc2 : s.gen.rows.length ≤ (W.filter (fun r => decide (g r = g x))).length := by
    rw [(h1.filter _).length_eq, List.filter_append, List.length_append]
    have : s.gen.rows.filter (fun r => decide (g r = g x)) = s.gen.rows := by
      rw [List.filter_eq_self]
      intro r hr
      rw [h.gen r hr]; simp
    rw [this]; omega
  omega

/-- From a uniform generation, not worse than the elite, only copies are selected by a stable `argsort`, because
the generation comes before the elite. -/
theorem Settled.selection_stable (hv : env.Valid) {Q : R → Prop} {I : σ → Prop} {s s1 : St R ℝ σ} {x : R}
    (hi : DriftInv e g Q I s) (h : Settled e g x s) (hs : StableSort env.argsort) (htr : 0 ≤ e.truncLen)
    (ht : truncation env e s = .ok s1) : ∀ r ∈ s1.gen.rows, r = x := by
  unfold truncation Gen.concat at ht
  split at ht
  · cases ht
  rename_i gen hgen
  split at hgen
  swap
  · cases hgen
  obtain rfl := Except.ok.inj hgen
  obtain rfl := Except.ok.inj ht
  set cs := s.evals ++ s.evalsElite with hcs
  have hcs' : cs = (s.gen.rows ++ s.elite.rows).map g := by
    rw [hcs, hi.evals, hi.evalsElite, List.map_append]
  have hget : ∀ k : ℕ, cs[k]? = ((s.gen.rows ++ s.elite.rows)[k]?).map g := by
    intro k; rw [hcs', List.getElem?_map]
  have hperm := hv.argsort.perm cs
  have hsort := hv.argsort.sorted cs
  have hstab := hs cs
  have hnd : (env.argsort cs).Nodup := hperm.nodup_iff.2 List.nodup_range
  intro r hr
  simp only [Gen.takeIdx, takeIdx, sliceTo, if_pos htr] at hr
  obtain ⟨k, hk, hkr⟩ := List.mem_filterMap.1 hr
  obtain ⟨i, hil, rfl⟩ := List.mem_iff_getElem.1 hk
  rw [List.getElem_take] at hkr
  have hi' : i < e.truncLen.toNat ∧ i < (env.argsort cs).length := by
    rw [List.length_take] at hil; omega
  rcases Nat.lt_or_ge ((env.argsort cs)[i]'hi'.2) s.gen.rows.length with hlt | hge
  · rw [List.getElem?_append_left hlt] at hkr
    exact h.gen r (List.mem_of_getElem? hkr)
  exfalso
  rw [List.getElem?_append_right hge] at hkr
  have hrel : r ∈ s.elite.rows := List.mem_of_getElem? hkr
  have hcost : cs[(env.argsort cs)[i]'hi'.2]? = some (g r) := by
    rw [hget, List.getElem?_append_right hge, hkr]; rfl
  -- all individuals of the generation come before
  have hsub : List.range s.gen.rows.length ⊆ (env.argsort cs).take i := by
    intro j hj
    have hjN : j < s.gen.rows.length := List.mem_range.1 hj
    have hjm : j ∈ env.argsort cs := hperm.mem_iff.2 (by
      rw [List.mem_range, hcs', List.length_map, List.length_append]; omega)
    obtain ⟨p, hp, hpj⟩ := List.mem_iff_getElem.1 hjm
    have hcj : cs[j]? = some (g x) := by
      rw [hget, List.getElem?_append_left hjN, List.getElem?_eq_getElem hjN]
      simp only [Option.map_some, h.gen _ (List.getElem_mem hjN)]
    rcases Nat.lt_trichotomy p i with hpi | hpi | hpi
    · refine List.mem_iff_getElem.2 ⟨p, by rw [List.length_take]; omega, ?_⟩
      rw [List.getElem_take]; exact hpj
    · subst hpi; omega
    · have h1 := List.pairwise_iff_getElem.1 hsort i p hi'.2 hp hpi _ _ hcost (by rw [hpj]; exact hcj)
      have h2 : g r ≤ g x := by
        have := h1.1
        simpa [PyCost.lt] using this
      have h3 : g r = g x := le_antisymm h2 (h.elite r hrel)
      have h4 := List.pairwise_iff_getElem.1 hstab i p hi'.2 hp hpi (by rw [hpj, hcj, hcost, h3])
      rw [hpj] at h4
      omega
  have hle := (List.nodup_range.subperm hsub).length_le
  rw [List.length_range, List.length_take] at hle
  have := h.size
  omega

/-- From a uniform generation, not worse than the elite, only copies are selected if ties do no harm. -/
theorem Settled.selection (hv : env.Valid) {Q : R → Prop} {I : σ → Prop} {s s1 : St R ℝ σ} {x : R}
    (hi : DriftInv e g Q I s) (h : Settled e g x s) (hg : TiesHarmless env g Q) (htr : 0 ≤ e.truncLen)
    (ht : truncation env e s = .ok s1) : ∀ r ∈ s1.gen.rows, r = x :=
  hg.elim (fun hg => h.selection_inj hv hi hg htr ht) (fun hs => h.selection_stable hv hi hs htr ht)

end

/-- What is used of an algorithm: the noise does nothing; a model learned from copies of `x` only samples `x`
(with the draws `Ok`); a model learned from at most `k` individuals fills the next generation with copies of
any given one of them with probability at least `δ`. -/
structure Drifts {R σ : Type} (e : Eda R σ (Draws ℝ)) (D : Measure (Draws ℝ)) (Q : R → Prop) (I : σ → Prop)
    (Ok : Draws ℝ → Prop) (δ : ENNReal) : Prop where
  noise : ∀ ω nz g g', e.mkNoise ω = .ok nz → nz g = .ok g' → g'.rows = g.rows
  keep : ∀ pm g el ω pm', I pm → (∀ r ∈ g.rows, Q r) → e.updatePm pm g el ω = .ok pm' → I pm'
  sample : ∀ pm g el ω pm' ω' g', I pm → g.rows ≠ [] → (∀ r ∈ g.rows, Q r) → e.updatePm pm g el ω = .ok pm' →
    Ok ω' → e.sample pm' ω' = .ok g' → e.truncLen ≤ g'.rows.length ∧ ∀ r ∈ g'.rows, Q r
  fixed : ∀ pm g el ω pm' ω' g' x, I pm → Q x → g.rows ≠ [] → (∀ r ∈ g.rows, r = x) →
    e.updatePm pm g el ω = .ok pm' → Ok ω' → e.sample pm' ω' = .ok g' → ∀ r ∈ g'.rows, r = x
  discrete : ∀ pm, Discretely (e.sample pm)
  luck : ∀ pm g el ω pm' x, I pm → (∀ r ∈ g.rows, Q r) → x ∈ g.rows → g.rows.length ≤ e.truncLen.toNat →
    e.updatePm pm g el ω = .ok pm' → δ ≤ D {ω' | ∃ g', e.sample pm' ω' = .ok g' ∧
      e.truncLen ≤ g'.rows.length ∧ ∀ r ∈ g'.rows, r = x}
  trunc : 1 ≤ e.truncLen

section
variable {R σ : Type} {env : Env ℝ} {e : Eda R σ (Draws ℝ)} {g : R → ℝ} {ftol : ℝ} {pm : σ}
variable {ρ : Rand (Draws ℝ)} {D : Measure (Draws ℝ)} {Q : R → Prop} {I : σ → Prop}
variable {Ok : Draws ℝ → Prop} {δ : ENNReal}

theorem callRows_same (g : R → ℝ) (k : ℕ) (rows : List R) : callRows (fun _ => g) k rows = rows.map g := by
  unfold callRows
  apply List.ext_getElem?
  intro i
  simp

/-- What a pass does with the individuals. -/
theorem drift_step (hv : env.Valid) (hd : Drifts e D Q I Ok δ) {nz : Gen R → Except PyErr (Gen R)}
    (hnz : e.mkNoise ρ.noise = .ok nz) {t : ℕ} (hok : Ok (ρ.sample t)) {s s' : St R ℝ σ} {b : Bool}
    (hi : DriftInv e g Q I s) (h : step env e (fun _ => g) ftol ρ nz t s = .ok (s', b)) :
    DriftInv e g Q I s' ∧ s'.log = s.log ++ [s'.gen.rows.map (fun r => (r, g r))] ∧
    e.truncLen ≤ s'.gen.rows.length ∧
    ∃ s1, truncation env e s = .ok s1 ∧ s'.elite = s1.elite ∧ ∃ noisy, noisy.rows = s1.gen.rows ∧
      e.updatePm s.pm noisy s1.elite (ρ.learn t) = .ok s'.pm ∧ e.sample s'.pm (ρ.sample t) = .ok s'.gen := by
  obtain ⟨s1, noisy, ev, best, i, ind, hs⟩ := step_ok h
  have hnr := hd.noise _ _ _ _ hnz hs.noise
  obtain ⟨hg1, he1⟩ := truncation_rows hv hi.aligned hs.trunc
  have hQ : ∀ r ∈ noisy.rows, Q r := by
    rw [hnr]; exact fun r h => (hg1 r h).elim (hi.rowsGen r) (hi.rowsElite r)
  obtain ⟨x, hx, hxmin, hxel⟩ := hi.first hv hd.trunc hs.trunc
  have hne : noisy.rows ≠ [] := by rw [hnr]; exact List.ne_nil_of_mem hx
  obtain ⟨hsz, hQ'⟩ := hd.sample _ _ _ _ _ _ _ hi.pm hne hQ hs.update hok hs.sample
  obtain ⟨_, _, _, _, _, hel⟩ := hi.selection hv hs.trunc
  have hcalls : ev.calls = s'.gen.rows.map (fun r => (r, g r)) := by
    rw [(check_calls hv hs.check).2, callRows_same]
    induction s'.gen.rows with
    | nil => rfl
    | cons a l ih => simp only [List.map_cons, List.zip_cons_cons, ih]
  refine ⟨⟨?_, ?_, hQ', ?_, ?_, hd.keep _ _ _ _ _ hi.pm hQ hs.update, ?_⟩, ?_, hsz, s1, hs.trunc, hs.elite, noisy,
    hnr, hs.update, hs.sample⟩
  · rw [hs.evals, check_stored hv hs.check, callRows_same]
  · rw [hs.evalsElite, hs.elite, hel]
  · rw [hs.elite]; exact fun r h => (he1 r h).elim (hi.rowsGen r) (hi.rowsElite r)
  · have := hd.trunc
    intro h0
    rw [h0] at hsz
    simp at hsz
    omega
  · intro he p hp
    rw [hs.log, List.flatten_append, List.mem_append] at hp
    rcases hp with hp | hp
    · obtain ⟨r, hr, hrp⟩ := hi.best he p hp
      exact ⟨x, List.mem_append_right _ (by rw [hs.elite]; exact hxel he), (hxmin r hr).trans hrp⟩
    · simp only [List.flatten_cons, List.flatten_nil, List.append_nil, hcalls] at hp
      obtain ⟨r, hr, rfl⟩ := List.mem_map.1 hp
      exact ⟨r, List.mem_append_left _ hr, le_rfl⟩
  · rw [hs.log, hcalls]

/-- A pass that samples copies of the best selected individual settles the run. -/
theorem settled_of_copies (hv : env.Valid) (hd : Drifts e D Q I Ok δ) {nz : Gen R → Except PyErr (Gen R)}
    (hnz : e.mkNoise ρ.noise = .ok nz) {t : ℕ} (hok : Ok (ρ.sample t)) {s s' s1 : St R ℝ σ} {b : Bool}
    (hi : DriftInv e g Q I s) (h : step env e (fun _ => g) ftol ρ nz t s = .ok (s', b))
    (ht : truncation env e s = .ok s1) {x : R}
    (hx : ∀ r ∈ s.gen.rows ++ s.elite.rows, g x ≤ g r) (hc : ∀ r ∈ s'.gen.rows, r = x) : Settled e g x s' := by
  obtain ⟨hi', hlog, hsz, s1', ht', hel, _⟩ := drift_step hv hd hnz hok hi h
  rw [ht] at ht'
  obtain rfl := Except.ok.inj ht'
  refine ⟨hc, hsz, ?_, ?_⟩
  · intro r hr
    rw [hel] at hr
    have := (truncation_rows hv hi.aligned ht).2 r hr
    exact hx r (List.mem_append.2 this)
  · intro he p hp
    rw [hlog, List.flatten_append, List.mem_append] at hp
    rcases hp with hp | hp
    · obtain ⟨r, hr, hrp⟩ := hi.best he p hp
      exact (hx r hr).trans hrp
    · simp only [List.flatten_cons, List.flatten_nil, List.append_nil] at hp
      obtain ⟨r, hr, rfl⟩ := List.mem_map.1 hp
      rw [hc r hr]

/-- A settled run stays settled. -/
theorem settled_step (hv : env.Valid) (hd : Drifts e D Q I Ok δ) (hg : TiesHarmless env g Q)
    {nz : Gen R → Except PyErr (Gen R)}
    (hnz : e.mkNoise ρ.noise = .ok nz) {t : ℕ} (hok : Ok (ρ.sample t)) {s s' : St R ℝ σ} {b : Bool}
    (hi : DriftInv e g Q I s) {x : R} (hs : Settled e g x s)
    (h : step env e (fun _ => g) ftol ρ nz t s = .ok (s', b)) : Settled e g x s' := by
  obtain ⟨hi', hlog, hsz, s1, ht, hel, noisy, hnr, hu, hsm⟩ := drift_step hv hd hnz hok hi h
  have htr := hd.trunc
  have hsel := hs.selection hv hi hg (by omega) ht
  obtain ⟨y, hy, _⟩ := hi.first hv htr ht
  have hQx : Q x := by
    obtain ⟨r, hr⟩ := List.exists_mem_of_ne_nil _ hi.nonempty
    rw [← hs.gen r hr]; exact hi.rowsGen r hr
  refine settled_of_copies hv hd hnz hok hi h ht ?_
    (hd.fixed _ _ _ _ _ _ _ x hi.pm hQx (by rw [hnr]; exact List.ne_nil_of_mem hy)
      (by rw [hnr]; exact hsel) hu hok hsm)
  intro r hr
  rcases List.mem_append.1 hr with h | h
  · rw [hs.gen r h]
  · exact hs.elite r h

/-- One pass with given draws. -/
noncomputable def passWith (env : Env ℝ) (e : Eda R σ (Draws ℝ)) (g : R → ℝ) (ftol : ℝ) (ρ : Rand (Draws ℝ))
    (nz : Gen R → Except PyErr (Gen R)) (t : ℕ) (s : St R ℝ σ) (ω : Draws ℝ) :
    Except PyErr (St R ℝ σ × Bool) :=
  step env e (fun _ => g) ftol { ρ with sample := fun _ => ω } nz t s

/-- The state after a pass. -/
def stateAfter (s0 : St R ℝ σ) : Except PyErr (St R ℝ σ × Bool) → St R ℝ σ
  | .ok (s, _) => s
  | .error _ => s0

/-- The pass raises, or settles the run. -/
def Settling (e : Eda R σ (Draws ℝ)) (g : R → ℝ) : Set (Except PyErr (St R ℝ σ × Bool)) :=
  {o | ∀ s' b, o = .ok (s', b) → ∃ x, Settled e g x s'}

theorem passWith_discrete (hd : Drifts e D Q I Ok δ) (nz : Gen R → Except PyErr (Gen R)) (t : ℕ)
    (s : St R ℝ σ) : Discretely (passWith env e g ftol ρ nz t s) := by
  unfold passWith step
  rcases truncation env e s with err | s1
  · exact .const _
  simp only
  rcases nz s1.gen with err | noisy
  · exact .const _
  simp only
  rcases e.updatePm s1.pm noisy s1.elite (ρ.learn t) with err | pm
  · exact .const _
  simp only
  obtain ⟨β, i1, i2, i3, B, hB, h⟩ := hd.discrete pm
  refine ⟨β, i1, i2, i3, B, hB, fun x y hxy => ?_⟩
  simp only [h x y hxy]

/-- Every pass settles the run (or raises) with probability at least `δ`. -/
theorem settling_probability [IsProbabilityMeasure D] (hv : env.Valid) (hd : Drifts e D Q I Ok δ) (hδ : δ ≤ 1)
    (hok : ∀ᵐ ω ∂D, Ok ω) {nz : Gen R → Except PyErr (Gen R)} (hnz : e.mkNoise ρ.noise = .ok nz) (t : ℕ)
    {s : St R ℝ σ} (hi : DriftInv e g Q I s) :
    δ ≤ D (passWith env e g ftol ρ nz t s ⁻¹' Settling e g) := by
  have herr : ∀ err, (∀ ω, passWith env e g ftol ρ nz t s ω = .error err) →
      δ ≤ D (passWith env e g ftol ρ nz t s ⁻¹' Settling e g) := by
    intro err h
    have : passWith env e g ftol ρ nz t s ⁻¹' Settling e g = Set.univ := by
      rw [Set.eq_univ_iff_forall]
      intro ω s' b hsb
      rw [h ω] at hsb; cases hsb
    rw [this, measure_univ]; exact hδ
  rcases h1 : truncation env e s with err | s1
  · exact herr err fun ω => by simp only [passWith, step, h1]
  rcases h2 : nz s1.gen with err | noisy
  · exact herr err fun ω => by simp only [passWith, step, h1, h2]
  have hpm : s1.pm = s.pm := (truncation_fields h1).2.2.1
  rcases h3 : e.updatePm s.pm noisy s1.elite (ρ.learn t) with err | pm'
  · exact herr err fun ω => by simp only [passWith, step, h1, h2, hpm, h3]
  obtain ⟨x, hx, hxmin, _⟩ := hi.first hv hd.trunc h1
  have hnr := hd.noise _ _ _ _ hnz h2
  have hQ : ∀ r ∈ noisy.rows, Q r := by
    rw [hnr]
    exact fun r h => ((truncation_rows hv hi.aligned h1).1 r h).elim (hi.rowsGen r) (hi.rowsElite r)
  have hlen : noisy.rows.length ≤ e.truncLen.toNat := by
    rw [hnr, truncation_length hv hi.aligned h1 (by have := hd.trunc; omega)]
    exact min_le_left _ _
  refine (hd.luck _ _ _ _ _ x hi.pm hQ (by rw [hnr]; exact hx) hlen h3).trans ?_
  apply measure_mono_ae
  filter_upwards [hok] with ω hω hc s' b hsb
  obtain ⟨g', hg', _, hcopies⟩ := hc
  have hstep : step env e (fun _ => g) ftol { ρ with sample := fun _ => ω } nz t s = .ok (s', b) := hsb
  refine ⟨x, settled_of_copies (ρ := { ρ with sample := fun _ => ω }) hv hd hnz hω hi hstep h1 hxmin ?_⟩
  obtain ⟨s1', noisy', _, _, _, _, hs⟩ := step_ok hstep
  have e1 := hs.trunc
  rw [h1] at e1
  obtain rfl := Except.ok.inj e1
  have e2 := hs.noise
  rw [h2] at e2
  obtain rfl := Except.ok.inj e2
  have e3 := hs.update
  change e.updatePm s.pm noisy s1.elite (ρ.learn t) = _ at e3
  rw [h3] at e3
  have e4 := hs.sample
  rw [← Except.ok.inj e3] at e4
  change e.sample pm' ω = _ at e4
  rw [hg'] at e4
  rw [← Except.ok.inj e4]
  exact hcopies

/-- A settled state at the end of a run was settled for all generations since. -/
theorem loop_settled (hv : env.Valid) (hd : Drifts e D Q I Ok δ) (hg : TiesHarmless env g Q)
    {nz : Gen R → Except PyErr (Gen R)} (hnz : e.mkNoise ρ.noise = .ok nz) (hok : ∀ t, Ok (ρ.sample t))
    {n t T : ℕ} {s sf : St R ℝ σ} {x : R} (hi : DriftInv e g Q I s) (hs : Settled e g x s)
    (hT : SettledFrom T x s) (h : loop env e (fun _ => g) ftol ρ nz n t s = .ok sf) :
    SettledFrom T x sf ∧ (1 ≤ e.eliteLen → BestOfRun g x sf) := by
  have := loop_inv (env := env) (e := e) (f := fun _ => g) (ftol := ftol) (ρ := ρ) (noise := nz)
    (fun s => DriftInv e g Q I s ∧ Settled e g x s ∧ SettledFrom T x s) ?_ n t s sf ⟨hi, hs, hT⟩ h
  · exact ⟨this.2.2, this.2.1.best⟩
  · rintro t s s' b ⟨h1, h2, h3⟩ hst
    obtain ⟨h1', hlog, _⟩ := drift_step hv hd hnz (hok t) h1 hst
    have h2' := settled_step hv hd hg hnz (hok t) h1 h2 hst
    refine ⟨h1', h2', ?_⟩
    intro t' batch ht' hb p hp
    rw [hlog] at hb
    rcases Nat.lt_or_ge t' s.log.length with hl | hl
    · rw [List.getElem?_append_left hl] at hb
      exact h3 t' batch ht' hb p hp
    · rw [List.getElem?_append_right hl] at hb
      have hb := List.mem_of_getElem? hb
      rw [List.mem_singleton] at hb
      subst hb
      obtain ⟨r, hr, rfl⟩ := List.mem_map.1 hp
      exact h2'.gen r hr

/-- A run that is not settled after `T` generations failed to settle in every pass. -/
theorem loop_unsettled (hv : env.Valid) (hd : Drifts e D Q I Ok δ) (hg : TiesHarmless env g Q)
    {nz : Gen R → Except PyErr (Gen R)} (hnz : e.mkNoise ρ.noise = .ok nz) {ω : ℕ → Draws ℝ}
    (hok : ∀ t, Ok (ω t)) (T : ℕ) (s0 : St R ℝ σ) {sf : St R ℝ σ} (n t : ℕ) (s : St R ℝ σ)
    (hi : DriftInv e g Q I s) (hl : s.log.length = t)
    (h : loop env e (fun _ => g) ftol { ρ with sample := ω } nz n t s = .ok sf)
    (hT : T + 1 ≤ sf.log.length) :
    ω ∈ AllFail (passWith env e g ftol ρ nz) (stateAfter s0) (fun _ _ => Settling e g) (DriftInv e g Q I)
      (T + 1 - t) t s ∨ ∃ x, SettledFrom T x sf ∧ (1 ≤ e.eliteLen → BestOfRun g x sf) := by
  induction n generalizing t s with
  | zero =>
    simp only [loop, Except.ok.injEq] at h
    left
    rw [show T + 1 - t = 0 by rw [← h] at hT; omega]
    trivial
  | succ n ih =>
    rcases Nat.eq_zero_or_pos (T + 1 - t) with h0 | hpos
    · left; rw [h0]; trivial
    obtain ⟨m, hm⟩ := Nat.exists_eq_add_of_le' hpos
    unfold loop at h
    cases hst : step env e (fun _ => g) ftol { ρ with sample := ω } nz t s with
    | error err => rw [hst] at h; simp at h
    | ok x =>
      obtain ⟨s', b⟩ := x
      rw [hst] at h
      have hpass : passWith env e g ftol ρ nz t s (ω t) = .ok (s', b) := hst
      obtain ⟨hi', hlog, _⟩ := drift_step (ρ := { ρ with sample := ω }) hv hd hnz (hok t) hi hst
      have hl' : s'.log.length = t + 1 := by rw [hlog]; simp [hl]
      by_cases hgood : passWith env e g ftol ρ nz t s (ω t) ∈ Settling e g
      · right
        obtain ⟨x, hx⟩ := hgood s' b hpass
        have hfrom : SettledFrom T x s' := by
          intro t' batch ht' hb p hp
          rw [hlog, List.getElem?_append_right (by omega)] at hb
          have hb := List.mem_of_getElem? hb
          rw [List.mem_singleton] at hb
          subst hb
          obtain ⟨r, hr, rfl⟩ := List.mem_map.1 hp
          exact hx.gen r hr
        refine ⟨x, ?_⟩
        cases b with
        | true =>
          simp only [Except.ok.injEq] at h
          rw [← h]
          exact ⟨hfrom, hx.best⟩
        | false => exact loop_settled (ρ := { ρ with sample := ω }) hv hd hg hnz hok hi' hx hfrom h
      · have hnext : ω ∈ AllFail (passWith env e g ftol ρ nz) (stateAfter s0) (fun _ _ => Settling e g)
            (DriftInv e g Q I) m (t + 1) s' ∨
            ∃ x, SettledFrom T x sf ∧ (1 ≤ e.eliteLen → BestOfRun g x sf) := by
          cases b with
          | true =>
            simp only [Except.ok.injEq] at h
            left
            rw [show m = 0 by rw [← h] at hT; omega]
            trivial
          | false =>
            have := ih (t + 1) s' hi' hl' h
            rwa [show T + 1 - (t + 1) = m by omega] at this
        refine hnext.imp_left fun h' => ?_
        rw [hm]
        refine ⟨hi, hgood, ?_⟩
        rw [hpass]
        exact h'

/-- The first generation. -/
theorem drift_start (hv : env.Valid) (hI : I pm) (hQ : ∀ gen, e.initGen ρ.init = .ok gen → ∀ r ∈ gen.rows, Q r)
    {s0 : St R ℝ σ} (h : start env e (fun _ => g) pm ρ = .ok s0) :
    DriftInv e g Q I s0 ∧ s0.log.length = 1 := by
  obtain ⟨ev, r0, c0, best, i, hs⟩ := start_ok h
  have hst := check_stored hv hs.check
  rw [callRows_same] at hst
  have hr0 := List.mem_of_getElem? hs.row0
  refine ⟨⟨by rw [hs.evals, hst], ?_, hQ _ hs.init, ?_, List.ne_nil_of_mem hr0, by rw [hs.pm]; exact hI, ?_⟩,
    by rw [hs.log]; rfl⟩
  · rw [hs.elite, hs.evalsElite]
    have := hs.cost0
    rw [hst, List.getElem?_map, hs.row0] at this
    simp only [Option.map_some, Option.some.injEq] at this
    simp [this]
  · rw [hs.elite]
    intro r hr
    simp only [List.mem_singleton] at hr
    rw [hr]; exact hQ _ hs.init _ hr0
  · intro _ p hp
    rw [hs.log] at hp
    simp only [List.flatten_cons, List.flatten_nil, List.append_nil] at hp
    rw [(check_calls hv hs.check).2] at hp
    exact ⟨p.1, List.mem_append_left _ (List.of_mem_zip hp).1, le_rfl⟩

/-- A run evaluates more than `T` generations without being settled from generation `T` on with probability at
most `(1 - δ) ^ T`. -/
theorem unsettled_probability [IsProbabilityMeasure D] (hv : env.Valid) (hd : Drifts e D Q I Ok δ) (hδ : δ ≤ 1)
    (hok : ∀ᵐ ω ∂D, Ok ω) (hg : TiesHarmless env g Q) (hI : I pm)
    (hQ : ∀ gen, e.initGen ρ.init = .ok gen → ∀ r ∈ gen.rows, Q r) (T : ℕ) :
    eachGen D {ω | ∃ res s, minimize env e (fun _ => g) ftol pm { ρ with sample := ω } = .ok (res, s) ∧
      T < res.history.length ∧ ¬ ∃ x, SettledFrom T x s ∧ (1 ≤ e.eliteLen → BestOfRun g x s)} ≤ (1 - δ) ^ T := by
  rcases h0 : start env e (fun _ => g) pm ρ with err | s0
  · refine le_trans (le_of_eq ?_) zero_le
    rw [show {ω | _} = (∅ : Set (ℕ → Draws ℝ)) from ?_, measure_empty]
    rw [Set.eq_empty_iff_forall_notMem]
    rintro ω ⟨res, s, hrun, _⟩
    obtain ⟨s0', _, h0', _⟩ := minimize_ok hrun
    have h0' : start env e (fun _ => g) pm ρ = .ok s0' := h0'
    rw [h0] at h0'; cases h0'
  rcases hnz : e.mkNoise ρ.noise with err | nz
  · refine le_trans (le_of_eq ?_) zero_le
    rw [show {ω | _} = (∅ : Set (ℕ → Draws ℝ)) from ?_, measure_empty]
    rw [Set.eq_empty_iff_forall_notMem]
    rintro ω ⟨res, s, hrun, _⟩
    obtain ⟨_, nz, _, hnz', _⟩ := minimize_ok hrun
    have hnz' : e.mkNoise ρ.noise = .ok nz := hnz'
    rw [hnz] at hnz'; cases hnz'
  have hall : ∀ᵐ ω ∂(eachGen D), ∀ t, Ok (ω t) := by
    rw [ae_all_iff]
    intro t
    exact (measurePreserving_eval_infinitePi (fun _ : ℕ => D) t).quasiMeasurePreserving.ae hok
  refine le_trans ?_ (allFail_le D (out := passWith env e g ftol ρ nz) (nxt := stateAfter s0)
    (good := fun _ _ => Settling e g) (Inv := DriftInv e g Q I) (δ := δ)
    (fun t s _ => passWith_discrete hd nz t s)
    (fun t s hi => settling_probability hv hd hδ hok hnz t hi) T 1 s0)
  apply measure_mono_ae
  filter_upwards [hall] with ω hω hb
  obtain ⟨res, s, hrun, hT, hno⟩ := hb
  obtain ⟨s0', nz', h0', hnz', hl, hres⟩ := minimize_ok hrun
  have h0' : start env e (fun _ => g) pm ρ = .ok s0' := h0'
  have hnz' : e.mkNoise ρ.noise = .ok nz' := hnz'
  rw [h0] at h0'
  obtain rfl := Except.ok.inj h0'
  rw [hnz] at hnz'
  obtain rfl := Except.ok.inj hnz'
  obtain ⟨hi, hlog⟩ := drift_start hv hI hQ h0
  have hlen := (C04_history_is_min hv hrun).1
  rcases loop_unsettled hv hd hg hnz hω T s0 _ 1 s0 hi hlog hl (by omega) with h | h
  · rw [Nat.add_sub_cancel] at h; exact h
  · exact absurd h hno

end

end Verif
