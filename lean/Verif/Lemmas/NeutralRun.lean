/-
Runs of UMDAd that differ only in the draws of a variable that the cost function ignores.
-/
import Verif.Spec.Neutral
import Verif.Lemmas.Neutral
import Verif.Lemmas.Sim
import Verif.Props.Binary

set_option linter.unusedSectionVars false

namespace Verif

open PyCost Spec MeasureTheory

section sim
variable {fl : ℝ → ℝ} {cfg : UMDAdCfg ℝ} {ρ : Rand (Draws ℝ)} {j : ℕ}
variable {e : Eda (List ℝ) (UniBin ℝ) (Draws ℝ)} {b : UniBin ℝ}

/-- Individuals of `n` values that differ at most in variable `j`. -/
def OffRel (n j : ℕ) (r r' : List ℝ) : Prop := r.length = n ∧ r'.length = n ∧ AgreeOff j r r'

/-- Models with the same settings. -/
structure OffBin0 (n : ℕ) (m m' : UniBin ℝ) : Prop where
  size : m.n = n
  size' : m'.n = n
  lb : m'.lb = m.lb
  ub : m'.ub = m.ub
  lt : m.lb < m.ub

/-- Models that differ at most in the probability of variable `j`. -/
structure OffBin (n j : ℕ) (m m' : UniBin ℝ) : Prop where
  base : OffBin0 n m m'
  p : OffRel n j m.p m'.p

theorem offRel_refl {n : ℕ} {r : List ℝ} (h : r.length = n) : OffRel n j r r := ⟨h, h, fun _ _ => rfl⟩

theorem forall₂_refl {n : ℕ} {rows : List (List ℝ)} (h : Rect n rows) :
    List.Forall₂ (OffRel n j) rows rows := by
  induction rows with
  | nil => exact .nil
  | cons r rs ih => exact .cons (offRel_refl (h r (by simp))) (ih fun x hx => h x (by simp [hx]))

theorem off_col {n k : ℕ} (hk : k ≠ j) {rows rows' : List (List ℝ)}
    (h : List.Forall₂ (OffRel n j) rows rows') : col rows' k = col rows k := by
  induction h with
  | nil => rfl
  | cons hab _ ih =>
    unfold col at ih ⊢
    rw [List.map_cons, List.map_cons, ih, List.getD_eq_getElem?_getD, List.getD_eq_getElem?_getD,
      hab.2.2 k hk]

theorem off_rect {n : ℕ} {rows rows' : List (List ℝ)}
    (h : List.Forall₂ (OffRel n j) rows rows') : Rect n rows ∧ Rect n rows' := by
  induction h with
  | nil => simp [Rect]
  | cons hab _ ih =>
    constructor
    · intro r hr
      rcases List.mem_cons.1 hr with rfl | hr
      · exact hab.1
      · exact ih.1 r hr
    · intro r hr
      rcases List.mem_cons.1 hr with rfl | hr
      · exact hab.2.1
      · exact ih.2 r hr

theorem off_learn {n : ℕ} {m m' : UniBin ℝ} (hm : OffBin0 n m m') {rows rows' : List (List ℝ)}
    (h : List.Forall₂ (OffRel n j) rows rows') :
    ExRel (OffBin n j) (m.learn fl rows) (m'.learn fl rows') := by
  obtain ⟨hr, hr'⟩ := off_rect h
  cases h with
  | nil => exact .error _
  | @cons r r' rs rs' hab hrest =>
    have h : List.Forall₂ (OffRel n j) (r :: rs) (r' :: rs') := .cons hab hrest
    have e1 : ∃ x, m.learn fl (r :: rs) = .ok x := ⟨_, rfl⟩
    have e2 : ∃ x, m'.learn fl (r' :: rs') = .ok x := ⟨_, rfl⟩
    obtain ⟨x, hx⟩ := e1
    obtain ⟨y, hy⟩ := e2
    rw [hx, hy]
    obtain ⟨a1, a2, a3, a4, a5⟩ := C20_learn_frequencies hm.lt hr hx
    obtain ⟨b1, b2, b3, b4, b5⟩ := C20_learn_frequencies (by rw [hm.lb, hm.ub]; exact hm.lt) hr' hy
    refine .ok ⟨⟨by rw [a4, hm.size], by rw [b4, hm.size'], by rw [a2, b2, hm.lb], by rw [a3, b3, hm.ub],
      by rw [a2, a3]; exact hm.lt⟩, a1, b1, ?_⟩
    intro k hk
    rcases Nat.lt_or_ge k n with hkn | hkn
    · rw [a5 k hkn, b5 k hkn, off_col hk h, hm.lb, hm.ub]
    · rw [List.getElem?_eq_none (by omega), List.getElem?_eq_none (by omega)]

theorem off_sample {n : ℕ} {m m' : UniBin ℝ} (hm : OffBin n j m m') (size : ℤ) {ω ω' : Draws ℝ}
    (hω : ∀ i k, k ≠ j → ω' i k = ω i k) :
    ExRel (GenRel (OffRel n j) n n) (m.sample size ω) (m'.sample size ω') := by
  rcases lt_or_ge size 0 with hs | hs
  · unfold UniBin.sample
    rw [if_pos hs, if_pos hs]
    exact .error _
  · rw [UniBin.sample_of_length (by rw [hm.p.1, hm.base.size]) hs,
      UniBin.sample_of_length (by rw [hm.p.2.1, hm.base.size']) hs]
    refine .ok ⟨rfl, hm.base.size, hm.base.size', ?_⟩
    rw [hm.base.size, hm.base.size']
    simp only
    generalize List.range size.toNat = l
    induction l with
    | nil => exact .nil
    | cons i l ih =>
      refine .cons ⟨binRow_length _ _ _ _, binRow_length _ _ _ _, ?_⟩ ih
      intro k hk
      rcases Nat.lt_or_ge k n with hkn | hkn
      · rw [binRow_getElem? _ _ _ _ _ hkn, binRow_getElem? _ _ _ _ _ hkn]
        have e1 : (if n = 1 then 0 else k) = k := by split <;> omega
        have e2 : (if m.p.length = 1 then 0 else k) = k := by rw [hm.p.1]; exact e1
        have e3 : (if m'.p.length = 1 then 0 else k) = k := by rw [hm.p.2.1]; exact e1
        rw [e1, e2, e3, hω i k hk, List.getD_eq_getElem?_getD, List.getD_eq_getElem?_getD, hm.p.2.2 k hk]
      · rw [List.getElem?_eq_none (by rw [binRow_length]; exact hkn),
          List.getElem?_eq_none (by rw [binRow_length]; exact hkn)]

/-- Two runs whose draws differ only for variable `j`. -/
theorem off_sim (h : UMDAd fl cfg = .ok (e, b)) (hw : cfg.WF) (u : ℕ × ℕ → ℝ) :
    EdaSim (OffRel cfg.base.nVars j) cfg.base.nVars cfg.base.nVars (OffBin0 cfg.base.nVars)
      (OffBin cfg.base.nVars j) e e ρ (withColumn ρ j u) := by
  obtain ⟨hm, hlu, hb⟩ := UMDAd_ok h
  have hr := umdad_rows (ρ := ρ) h hw
  refine ⟨rfl, rfl, rfl, rfl, rfl, rfl, ?_, ?_, ?_, ?_, fun _ _ h => h.base⟩
  · change ExRel _ (e.initGen ρ.init) (e.initGen ρ.init)
    rcases hx : e.initGen ρ.init with err | g
    · exact .error _
    · have hc : g.cols = cfg.base.nVars := by
        cases hd : cfg.base.initData with
        | none =>
          rw [hm.initNone hd] at hx
          obtain ⟨hp, hn⟩ := umdadInit_length hw
          obtain ⟨_, _, _, h4, _⟩ := UniBin.sample_ok hx
          rw [h4, hp, hn]; split <;> rfl
        | some d =>
          rw [(hm.initSome d hd).2] at hx
          obtain rfl := Except.ok.inj hx
          exact (hm.initSome d hd).1
      exact .ok ⟨rfl, hc, hc, forall₂_refl (hr.init g hx)⟩
  · change ExRel _ (e.mkNoise ρ.noise) (e.mkNoise ρ.noise)
    rcases hx : e.mkNoise ρ.noise with err | N
    · exact .error _
    · refine .ok fun g g' hg => ?_
      rw [hm.mkNoise] at hx
      have hN : N = addNoise .zero := by
        simp [mkWhiteNoise, BaseCfg.noiseAttr] at hx
        exact hx.symm
      subst hN
      unfold addNoise
      simp only [hg.dt]
      cases g.dt <;> first | exact .ok hg | exact .error _
  · intro t m m' g g' el el' hmm hg _
    rw [hm.updatePm]
    exact off_learn hmm hg.rows
  · intro t m m' hmm
    rw [hm.sample]
    refine off_sample hmm _ fun i k hk => ?_
    simp [withColumn, hk]


/-! ### The probability of the ignored variable -/

theorem col_length (rows : List (List ℝ)) : (col rows j).length = rows.length := by simp [col]

/-- Selecting rows selects the entries of every column. -/
theorem col_takeIdx (rows : List (List ℝ)) (g : ℕ → ℝ) {idx : List ℕ}
    (hidx : ∀ i ∈ idx, i < rows.length) (hg : ∀ i, i < rows.length → (col rows j)[i]? = some (g i)) :
    col (takeIdx rows idx) j = idx.map g := by
  unfold takeIdx
  induction idx with
  | nil => rfl
  | cons i idx ih =>
    have hi := hidx i (by simp)
    have h1 : rows[i]? = some rows[i] := List.getElem?_eq_getElem hi
    have h2 := hg i hi
    rw [col, List.getElem?_map, h1] at h2
    simp only [Option.map_some, Option.some.injEq] at h2
    have ih := ih fun k hk => hidx k (by simp [hk])
    rw [List.filterMap_cons, h1]
    simp only [List.map_cons]
    rw [← ih, ← h2]
    rfl

theorem clip_id {lo hi x : ℝ} (h0 : lo ≤ 0) (h1 : 1 ≤ hi) (hx : 0 ≤ x ∧ x ≤ 1) : clip lo hi x = x := by
  unfold clip
  rw [min_eq_right (by linarith), max_eq_right (by linarith)]

variable {C : Type} [PyCost C] {env : Env C} {f : ℕ → List ℝ → C} {ftol : C}
variable {N : Gen (List ℝ) → Except PyErr (Gen (List ℝ))}

/-- What a pass does to the probability and the values of variable `j`. -/
theorem column_step (h : UMDAd id cfg = .ok (e, b)) (hj : j < cfg.base.nVars) (hN : e.mkNoise ρ.noise = .ok N)
    {ρ' : Rand (Draws ℝ)} {t : ℕ} {s s' : St (List ℝ) C (UniBin ℝ)} {brk : Bool}
    (hn : s.pm.n = cfg.base.nVars) (hlu : s.pm.lb < s.pm.ub)
    (hr : Rect cfg.base.nVars s.gen.rows) (hre : Rect cfg.base.nVars s.elite.rows)
    (hst : step env e f ftol ρ' N t s = .ok (s', brk)) :
    s'.pm.lb = s.pm.lb ∧ s'.pm.ub = s.pm.ub ∧ ∃ x,
      x = clip s.pm.lb s.pm.ub (mean (col (takeIdx (s.gen.rows ++ s.elite.rows)
        (sliceTo (env.argsort (s.evals ++ s.evalsElite)) e.truncLen)) j)) ∧
      s'.pm.p[j]? = some x ∧
      col s'.gen.rows j = (List.range cfg.base.sizeGen.toNat).map
        (fun i => if ρ'.sample t i j < x then 1 else 0) ∧
      s'.elite.rows = takeIdx (s.gen.rows ++ s.elite.rows)
        (sliceTo (env.argsort (s.evals ++ s.evalsElite)) e.eliteLen) := by
  obtain ⟨hm, _, _⟩ := UMDAd_ok h
  obtain ⟨s1, noisy, ev, best, i, ind, hs⟩ := step_ok hst
  have hz := UMDAd_noise h hN hs.noise
  subst hz
  have ht : s1.gen.rows = takeIdx (s.gen.rows ++ s.elite.rows)
        (sliceTo (env.argsort (s.evals ++ s.evalsElite)) e.truncLen) ∧
      s1.elite.rows = takeIdx (s.gen.rows ++ s.elite.rows)
        (sliceTo (env.argsort (s.evals ++ s.evalsElite)) e.eliteLen) := by
    have := hs.trunc
    unfold truncation Gen.concat at this
    split at this
    · simp at this
    · rename_i g hg
      split at hg
      · simp only [Except.ok.injEq] at hg this
        subst hg
        subst this
        exact ⟨rfl, rfl⟩
      · simp at hg
  have hrect : Rect cfg.base.nVars s1.gen.rows := by
    intro r hr1
    rw [ht.1, takeIdx, List.mem_filterMap] at hr1
    obtain ⟨k, _, hk⟩ := hr1
    rcases List.mem_append.1 (List.mem_of_getElem? hk) with h1 | h1
    · exact hr r h1
    · exact hre r h1
  have hu := hs.update
  rw [hm.updatePm] at hu
  obtain ⟨a1, a2, a3, a4, a5⟩ := C20_learn_frequencies hlu hrect hu
  have hsm := hs.sample
  rw [hm.sample] at hsm
  obtain ⟨b1, b2, b3, b4, b5⟩ := UniBin.sample_ok hsm
  have hc : s'.gen.cols = cfg.base.nVars := by rw [b4, a1, a4, hn]; split <;> rfl
  refine ⟨a2, a3, _, rfl, ?_, ?_, ?_⟩
  · rw [a5 j hj, ht.1]; rfl
  · rw [b5, hc, a4, hn, col, List.map_map]
    refine List.map_congr_left fun k hk => ?_
    simp only [Function.comp_apply]
    rw [List.getD_eq_getElem?_getD, binRow_getElem? _ _ _ _ _ hj]
    have e1 : (if cfg.base.nVars = 1 then 0 else j) = j := by split <;> omega
    have e2 : (if s'.pm.p.length = 1 then 0 else j) = j := by rw [a1]; exact e1
    rw [e1, e2, List.getD_eq_getElem?_getD, a5 j hj, ht.1]
    rfl
  · rw [hs.elite, ht.2]

/-- The state `s` after pass `t` of a run, the states `S u` after this pass in the runs that use `u`
for variable `j`, and the probability `P u` of variable `j` in them. -/
structure Drifting (cfg : UMDAdCfg ℝ) (j t : ℕ) (p v : ℝ) (s : St (List ℝ) C (UniBin ℝ))
    (S : (ℕ × ℕ → ℝ) → St (List ℝ) C (UniBin ℝ)) (P : (ℕ × ℕ → ℝ) → ℝ) : Prop where
  aligned : Aligned s
  elite : s.elite.rows = []
  rel : ∀ u, StRel (OffRel cfg.base.nVars j) cfg.base.nVars cfg.base.nVars (OffBin0 cfg.base.nVars) s (S u)
  bounds : ∀ u, (S u).pm.lb = cfg.lower ∧ (S u).pm.ub = cfg.upper
  prob : ∀ u, (S u).pm.p[j]? = some (P u)
  cell : ∀ u, col (S u).gen.rows j =
    (List.range cfg.base.sizeGen.toNat).map (fun i => if u (t, i) < P u then 1 else 0)
  measurable : Measurable P
  depends : DependsOn P (early cfg.base.sizeGen.toNat t : Set (ℕ × ℕ))
  unit : ∀ u, 0 ≤ P u ∧ P u ≤ 1
  mean : ∫ u, P u ∂cells = p
  var : ∫ u, P u * (1 - P u) ∂cells = v

theorem off_step (hv : env.Valid) (h : UMDAd id cfg = .ok (e, b)) (hw : cfg.WF)
    (hf : Ignores cfg.base.nVars j f) (hN : e.mkNoise ρ.noise = .ok N) {t : ℕ}
    {s s' : St (List ℝ) C (UniBin ℝ)} {brk : Bool} (hst : step env e f ftol ρ N t s = .ok (s', brk))
    (S : (ℕ × ℕ → ℝ) → St (List ℝ) C (UniBin ℝ))
    (hrel : ∀ u, StRel (OffRel cfg.base.nVars j) cfg.base.nVars cfg.base.nVars
      (OffBin0 cfg.base.nVars) s (S u)) :
    ∃ S' : (ℕ × ℕ → ℝ) → St (List ℝ) C (UniBin ℝ), ∀ u,
      step env e f ftol (withColumn ρ j u) N t (S u) = .ok (S' u, brk) ∧
      StRel (OffRel cfg.base.nVars j) cfg.base.nVars cfg.base.nVars
        (OffBin0 cfg.base.nVars) s' (S' u) := by
  have key : ∀ u, ∃ y, step env e f ftol (withColumn ρ j u) N t (S u) = .ok (y, brk) ∧
      StRel (OffRel cfg.base.nVars j) cfg.base.nVars cfg.base.nVars
        (OffBin0 cfg.base.nVars) s' y := by
    intro u
    have hsim := off_sim (ρ := ρ) (j := j) h hw u
    have hn := hsim.noise
    have hN' : e.mkNoise (withColumn ρ j u).noise = .ok N := hN
    rw [hN, hN'] at hn
    obtain ⟨hn⟩ := hn
    have hs := step_sim (f := f) (f' := f) (ftol := ftol) hv hsim
      (fun k r r' hr => hf k r r' hr.1 hr.2.1 hr.2.2) hn t (hrel u)
    rw [hst] at hs
    rcases hx : step env e f ftol (withColumn ρ j u) N t (S u) with err | ⟨y, b'⟩
    · rw [hx] at hs; cases hs
    · rw [hx] at hs
      obtain ⟨h1, h2⟩ := hs
      simp only at h1 h2
      subst h2
      exact ⟨y, rfl, h1⟩
  choose S' hS using key
  exact ⟨S', hS⟩

theorem drifting_step (hv : env.Valid) (h : UMDAd id cfg = .ok (e, b)) (hw : cfg.WF)
    (hj : j < cfg.base.nVars) (hlo : cfg.lower ≤ 0) (hup : 1 ≤ cfg.upper)
    (hf : Ignores cfg.base.nVars j f) (ht1 : 1 ≤ e.truncLen) (ht2 : e.truncLen ≤ e.sizeGen)
    (he : e.eliteLen = 0) (hN : e.mkNoise ρ.noise = .ok N) {t : ℕ} {p v : ℝ}
    {s s' : St (List ℝ) C (UniBin ℝ)} {brk : Bool} {S : (ℕ × ℕ → ℝ) → St (List ℝ) C (UniBin ℝ)}
    {P : (ℕ × ℕ → ℝ) → ℝ} (hd : Drifting cfg j t p v s S P)
    (hst : step env e f ftol ρ N (t + 1) s = .ok (s', brk)) :
    ∃ S' P', (∀ u, step env e f ftol (withColumn ρ j u) N (t + 1) (S u) = .ok (S' u, brk)) ∧
      Drifting cfg j (t + 1) p ((1 - 1 / (e.truncLen.toNat : ℝ)) * v) s' S' P' ∧
      ∀ u, ∃ k : ℕ, k ≤ e.truncLen.toNat ∧ P' u = k / (e.truncLen.toNat : ℝ) := by
  obtain ⟨hm, hlu, _⟩ := UMDAd_ok h
  obtain ⟨S', hS⟩ := off_step hv h hw hf hN hst S hd.rel
  have hsz : e.sizeGen = cfg.base.sizeGen := hm.sizeGen
  have hlen : s.gen.rows.length = cfg.base.sizeGen.toNat := by
    have h1 := congrArg List.length (hd.cell fun _ => 0)
    rw [col_length, List.length_map, List.length_range] at h1
    rw [← h1]
    exact ((hd.rel fun _ => 0).gen.rows).length_eq
  have hevl : s.evals.length = cfg.base.sizeGen.toNat := by rw [hd.aligned.1, hlen]
  have hee : s.evalsElite = [] := by
    have := hd.aligned.2
    rw [hd.elite] at this
    exact List.length_eq_zero_iff.1 this
  set idx := sliceTo (env.argsort s.evals) e.truncLen with hidx
  have hperm := hv.argsort.perm s.evals
  have hidxl : idx.length = e.truncLen.toNat := by
    rw [hidx, length_sliceTo, hperm.length_eq, List.length_range, hevl]
    unfold sliceLen
    rw [if_pos (by omega)]
    omega
  have hidxm : ∀ i ∈ idx, i < cfg.base.sizeGen.toNat := by
    intro i hi
    rw [hidx, sliceTo_eq_take] at hi
    have := hperm.mem_iff.1 (List.mem_of_mem_take hi)
    rw [List.mem_range, hevl] at this
    exact this
  have hnd : idx.Nodup := by
    rw [hidx, sliceTo_eq_take]
    exact (List.take_sublist _ _).nodup (hperm.nodup_iff.2 List.nodup_range)
  have hne : idx ≠ [] := by
    intro h0
    rw [h0] at hidxl
    simp at hidxl
    omega
  have hcol : ∀ u, (S' u).pm.lb = cfg.lower ∧ (S' u).pm.ub = cfg.upper ∧
      (S' u).pm.p[j]? = some (coins t idx P u) ∧
      col (S' u).gen.rows j = (List.range cfg.base.sizeGen.toNat).map
        (fun i => if u (t + 1, i) < coins t idx P u then 1 else 0) := by
    intro u
    have hr := hd.rel u
    obtain ⟨hb1, hb2⟩ := hd.bounds u
    obtain ⟨c1, c2, x, hx, c3, c4, c5⟩ := column_step (ρ := ρ) h hj hN hr.pm.size' (by rw [hb1, hb2]; exact hlu)
      (off_rect hr.gen.rows).2 (off_rect hr.elite.rows).2 (hS u).1
    have hel : (S u).elite.rows = [] := by
      have := hr.elite.rows
      rw [hd.elite] at this
      exact List.forall₂_nil_left_iff.1 this
    have hx' : x = coins t idx P u := by
      rw [hx, hb1, hb2, hel, hr.evals, hr.evalsElite, hee, List.append_nil, List.append_nil, ← hidx,
        col_takeIdx _ (fun i => if u (t, i) < P u then 1 else 0)]
      · have : mean (idx.map fun i => if u (t, i) < P u then (1 : ℝ) else 0) = coins t idx P u := by
          simp [Spec.mean, coins]
        rw [this, clip_id hlo hup (coins_01 idx u)]
      · intro i hi
        rw [← hr.gen.rows.length_eq, hlen]
        exact hidxm i hi
      · intro i hi
        rw [← hr.gen.rows.length_eq, hlen] at hi
        rw [hd.cell u, List.getElem?_map, List.getElem?_range hi]
        rfl
    subst hx'
    refine ⟨by rw [c1, hb1], by rw [c2, hb2], c3, ?_⟩
    rw [c4]
    simp [withColumn]
  refine ⟨S', coins t idx P, fun u => (hS u).1, ?_, ?_⟩
  · refine ⟨step_aligned hv hd.aligned hst, ?_, fun u => (hS u).2, fun u => ⟨(hcol u).1, (hcol u).2.1⟩,
      fun u => (hcol u).2.2.1, fun u => (hcol u).2.2.2, coins_measurable hd.measurable idx,
      coins_depends hd.depends hidxm, coins_01 idx, ?_, ?_⟩
    · have hr := hd.rel fun _ => 0
      obtain ⟨_, _, x, _, _, _, c5⟩ := column_step (ρ := ρ) h hj hN hr.pm.size hr.pm.lt
        (off_rect hr.gen.rows).1 (off_rect hr.elite.rows).1 hst
      rw [c5, he]
      simp [sliceTo, takeIdx]
    · rw [coins_mean hd.measurable hd.depends hd.unit hne, hd.mean]
    · rw [coins_var hd.measurable hd.depends hd.unit hne hnd, hd.var, hidxl]
  · intro u
    rw [← hidxl]
    exact coins_range idx u

theorem mean_unit {l : List ℝ} (h : ∀ x ∈ l, 0 ≤ x ∧ x ≤ 1) : 0 ≤ mean l ∧ mean l ≤ 1 := by
  have h0 : 0 ≤ l.sum := List.sum_nonneg fun x hx => (h x hx).1
  have h1 : l.sum ≤ l.length := by
    have := List.sum_le_card_nsmul l 1 fun x hx => (h x hx).2
    simpa using this
  exact ⟨div_nonneg h0 (by positivity), div_le_one_of_le₀ h1 (by positivity)⟩

theorem col_unit {n : ℕ} {rows : List (List ℝ)} (h : ∀ r ∈ rows, BinaryRow n r) :
    ∀ x ∈ col rows j, 0 ≤ x ∧ x ≤ 1 := by
  intro x hx
  rw [col, List.mem_map] at hx
  obtain ⟨r, hr, rfl⟩ := hx
  rw [List.getD_eq_getElem?_getD]
  rcases hy : r[j]? with _ | y
  · simp
  · rcases (h r hr).2 y (List.mem_of_getElem? hy) with rfl | rfl <;> simp

/-- The first pass: the selected individuals do not depend on the draws of the variable. -/
theorem drifting_first (hv : env.Valid) (h : UMDAd id cfg = .ok (e, b)) (hw : cfg.WF)
    (hj : j < cfg.base.nVars) (hlo : cfg.lower ≤ 0) (hup : 1 ≤ cfg.upper)
    (hbin : ∀ d, cfg.base.initData = some d → ∀ r ∈ d.rows, BinaryRow cfg.base.nVars r)
    (hf : Ignores cfg.base.nVars j f) (he : e.eliteLen = 0) (hN : e.mkNoise ρ.noise = .ok N)
    {s s' : St (List ℝ) C (UniBin ℝ)} {brk : Bool} (hs : start env e f b ρ = .ok s)
    (hst : step env e f ftol ρ N 1 s = .ok (s', brk)) :
    ∃ S' p, 0 ≤ p ∧ p ≤ 1 ∧ s'.pm.p[j]? = some p ∧
      (∀ u, step env e f ftol (withColumn ρ j u) N 1 s = .ok (S' u, brk)) ∧
      Drifting cfg j 1 p (p * (1 - p)) s' S' (fun _ => p) := by
  obtain ⟨hm, hlu, hb⟩ := UMDAd_ok h
  have hb0 : OffBin0 cfg.base.nVars b b := by
    rw [hb]; exact ⟨rfl, rfl, rfl, rfl, hlu⟩
  have hrel : ∀ u : ℕ × ℕ → ℝ, StRel (OffRel cfg.base.nVars j) cfg.base.nVars cfg.base.nVars
      (OffBin0 cfg.base.nVars) s s := by
    intro u
    have h0 := start_sim (f := f) (f' := f) hv (off_sim (ρ := ρ) (j := j) h hw u)
      (fun k r r' hr => hf k r r' hr.1 hr.2.1 hr.2.2) hb0
    have hs' : start env e f b (withColumn ρ j u) = .ok s := hs
    rw [hs, hs'] at h0
    obtain ⟨h0⟩ := h0
    exact h0
  obtain ⟨S', hS⟩ := off_step hv h hw hf hN hst (fun _ => s) hrel
  obtain ⟨ev, r0, c0, best, i0, ho⟩ := start_ok hs
  have hpm : s.pm.n = cfg.base.nVars ∧ s.pm.lb = cfg.lower ∧ s.pm.ub = cfg.upper := by
    rw [ho.pm, hb]; exact ⟨rfl, rfl, rfl⟩
  have hr := hrel fun _ => 0
  have hcs : ∀ {ρ' : Rand (Draws ℝ)} {y : St (List ℝ) C (UniBin ℝ)},
      step env e f ftol ρ' N 1 s = .ok (y, brk) → _ := fun {ρ' y} hy =>
    column_step (ρ := ρ) h hj hN hpm.1 (by rw [hpm.2.1, hpm.2.2]; exact hlu)
      (off_rect hr.gen.rows).1 (off_rect hr.elite.rows).1 hy
  obtain ⟨_, _, x, hx, c3, _, c5⟩ := hcs hst
  have hgen : ∀ r ∈ s.gen.rows, BinaryRow cfg.base.nVars r := by
    have hi := ho.init
    cases hd : cfg.base.initData with
    | none =>
      rw [hm.initNone hd] at hi
      obtain ⟨hp, hn⟩ := umdadInit_length hw
      obtain ⟨_, _, _, h4, h5⟩ := UniBin.sample_ok hi
      have hc : s.gen.cols = cfg.base.nVars := by rw [h4, hp, hn]; split <;> rfl
      intro r hr
      rw [h5, List.mem_map] at hr
      obtain ⟨k, _, rfl⟩ := hr
      rw [hc]
      exact binRow_binary _ _ _ _
    | some d =>
      rw [(hm.initSome d hd).2] at hi
      obtain rfl := Except.ok.inj hi
      exact hbin _ hd
  have hpool : ∀ r ∈ s.gen.rows ++ s.elite.rows, BinaryRow cfg.base.nVars r := by
    intro r hr
    rcases List.mem_append.1 hr with h1 | h1
    · exact hgen r h1
    · rw [ho.elite] at h1
      simp only [List.mem_singleton] at h1
      subst h1
      exact hgen r (List.mem_of_getElem? ho.row0)
  have hunit := mean_unit (col_unit (j := j) (rows := takeIdx (s.gen.rows ++ s.elite.rows)
      (sliceTo (env.argsort (s.evals ++ s.evalsElite)) e.truncLen)) (n := cfg.base.nVars) (by
    intro r hr
    rw [takeIdx, List.mem_filterMap] at hr
    obtain ⟨k, _, hk⟩ := hr
    exact hpool r (List.mem_of_getElem? hk)))
  have hx01 : 0 ≤ x ∧ x ≤ 1 := by
    rw [hx, hpm.2.1, hpm.2.2, clip_id hlo hup hunit]; exact hunit
  have hall : ∀ u, (S' u).pm.lb = cfg.lower ∧ (S' u).pm.ub = cfg.upper ∧ (S' u).pm.p[j]? = some x ∧
      col (S' u).gen.rows j = (List.range cfg.base.sizeGen.toNat).map
        (fun i => if u (1, i) < x then 1 else 0) := by
    intro u
    obtain ⟨d1, d2, y, hy, d3, d4, _⟩ := hcs (hS u).1
    rw [← hx] at hy
    subst hy
    refine ⟨by rw [d1, hpm.2.1], by rw [d2, hpm.2.2], d3, ?_⟩
    rw [d4]
    simp [withColumn]
  refine ⟨S', x, hx01.1, hx01.2, c3, fun u => (hS u).1, ?_⟩
  refine ⟨step_aligned hv (start_aligned hv hs) hst, ?_, fun u => (hS u).2,
    fun u => ⟨(hall u).1, (hall u).2.1⟩, fun u => (hall u).2.2.1, fun u => (hall u).2.2.2,
    measurable_const, fun _ _ _ => rfl, fun _ => hx01, by simp, by simp⟩
  rw [c5, he]
  simp [sliceTo, takeIdx]

theorem drifting_loop (hv : env.Valid) (h : UMDAd id cfg = .ok (e, b)) (hw : cfg.WF)
    (hj : j < cfg.base.nVars) (hlo : cfg.lower ≤ 0) (hup : 1 ≤ cfg.upper)
    (hf : Ignores cfg.base.nVars j f) (ht1 : 1 ≤ e.truncLen) (ht2 : e.truncLen ≤ e.sizeGen)
    (he : e.eliteLen = 0) (hN : e.mkNoise ρ.noise = .ok N) {p v : ℝ}
    {s' : St (List ℝ) C (UniBin ℝ)} (k : ℕ) :
    ∀ (t : ℕ) (s : St (List ℝ) C (UniBin ℝ)) (S : (ℕ × ℕ → ℝ) → St (List ℝ) C (UniBin ℝ))
      (P : (ℕ × ℕ → ℝ) → ℝ), s.history.length = t + 2 →
      Drifting cfg j (t + 1) p ((1 - 1 / (e.truncLen.toNat : ℝ)) ^ t * v) s S P →
      (1 ≤ t → ∀ u, ∃ k : ℕ, k ≤ e.truncLen.toNat ∧ P u = k / (e.truncLen.toNat : ℝ)) →
      loop env e f ftol ρ N k (t + 2) s = .ok s' →
    ∃ t' S' P', s'.history.length = t' + 2 ∧
      Drifting cfg j (t' + 1) p ((1 - 1 / (e.truncLen.toNat : ℝ)) ^ t' * v) s' S' P' ∧
      (1 ≤ t' → ∀ u, ∃ k : ℕ, k ≤ e.truncLen.toNat ∧ P' u = k / (e.truncLen.toNat : ℝ)) ∧
      ∀ u, loop env e f ftol (withColumn ρ j u) N k (t + 2) (S u) = .ok (S' u) := by
  induction k with
  | zero =>
    intro t s S P hl hd hg hloop
    obtain rfl := Except.ok.inj hloop
    exact ⟨t, S, P, hl, hd, hg, fun u => rfl⟩
  | succ k ih =>
    intro t s S P hl hd hg hloop
    unfold loop at hloop
    rcases hst : step env e f ftol ρ N (t + 2) s with err | ⟨s1, brk⟩
    · rw [hst] at hloop; simp at hloop
    rw [hst] at hloop
    obtain ⟨S1, P1, hS1, hd1, hg1⟩ := drifting_step hv h hw hj hlo hup hf ht1 ht2 he hN hd hst
    have hl1 : s1.history.length = t + 1 + 2 := by
      obtain ⟨_, _, _, _, _, _, ho⟩ := step_ok hst
      rw [ho.history, List.length_append, hl]; rfl
    rw [← mul_assoc, ← pow_succ'] at hd1
    cases brk with
    | true =>
      obtain rfl := Except.ok.inj hloop
      refine ⟨t + 1, S1, P1, hl1, hd1, fun _ => hg1, fun u => ?_⟩
      unfold loop
      rw [hS1 u]
    | false =>
      obtain ⟨t', S', P', q1, q2, q3, q4⟩ := ih (t + 1) s1 S1 P1 hl1 hd1 (fun _ => hg1) hloop
      refine ⟨t', S', P', q1, q2, q3, fun u => ?_⟩
      unfold loop
      rw [hS1 u]
      exact q4 u

end sim

end Verif
