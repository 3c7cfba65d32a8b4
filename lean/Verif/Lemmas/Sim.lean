/-
Two runs side by side: if two algorithms treat related individuals alike, their runs are related.
-/
import Verif.Lemmas.Parallel
import Verif.Lemmas.Core

namespace Verif

open PyCost

set_option linter.unusedSectionVars false

/-- Two outcomes are related: the same exception, or related values. -/
inductive ExRel {α β : Type} (Rel : α → β → Prop) : Except PyErr α → Except PyErr β → Prop
  | ok {a b} : Rel a b → ExRel Rel (.ok a) (.ok b)
  | error (err) : ExRel Rel (.error err) (.error err)

variable {R R' C σ σ' Ω Ω' : Type} [PyCost C] {rr : R → R' → Prop} {n n' : ℕ}

/-- Related generations: same dtype and number of rows, `n` and `n'` columns, related rows. -/
structure GenRel (rr : R → R' → Prop) (n n' : ℕ) (g : Gen R) (g' : Gen R') : Prop where
  dt : g'.dt = g.dt
  cols : g.cols = n
  cols' : g'.cols = n'
  rows : List.Forall₂ rr g.rows g'.rows

/-- Related best individuals. -/
inductive BestRel (rr : R → R' → Prop) : BestInd R → BestInd R' → Prop
  | index (i) : BestRel rr (.index i) (.index i)
  | row {r r'} : rr r r' → BestRel rr (.row r) (.row r')

/-- Related calls: related individuals, equal values. -/
def CallRel (rr : R → R' → Prop) (x : R × C) (y : R' × C) : Prop := rr x.1 y.1 ∧ x.2 = y.2

/-- Related states. -/
structure StRel (rr : R → R' → Prop) (n n' : ℕ) (rm : σ → σ' → Prop) (s : St R C σ) (s' : St R' C σ') :
    Prop where
  gen : GenRel rr n n' s.gen s'.gen
  evals : s'.evals = s.evals
  elite : GenRel rr n n' s.elite s'.elite
  evalsElite : s'.evalsElite = s.evalsElite
  bestCost : s'.bestCost = s.bestCost
  bestInd : BestRel rr s.bestInd s'.bestInd
  pm : rm s.pm s'.pm
  history : s'.history = s.history
  notBetter : s'.notBetter = s.notBetter
  log : List.Forall₂ (List.Forall₂ (CallRel rr)) s.log s'.log

/-- Related results. -/
structure ResRel (rr : R → R' → Prop) (r : EdaResult R C) (r' : EdaResult R' C) : Prop where
  bestInd : BestRel rr r.bestInd r'.bestInd
  bestCost : r'.bestCost = r.bestCost
  nFev : r'.nFev = r.nFev
  history : r'.history = r.history

/-- Two algorithms that treat related individuals alike.  `rm` relates the models after learning,
`rm0` those from which learning starts. -/
structure EdaSim (rr : R → R' → Prop) (n n' : ℕ) (rm0 rm : σ → σ' → Prop) (e : Eda R σ Ω) (e' : Eda R' σ' Ω')
    (ρ : Rand Ω) (ρ' : Rand Ω') : Prop where
  sizeGen : e'.sizeGen = e.sizeGen
  maxIter : e'.maxIter = e.maxIter
  deadIter : e'.deadIter = e.deadIter
  truncLen : e'.truncLen = e.truncLen
  eliteLen : e'.eliteLen = e.eliteLen
  parallel : e'.parallel = e.parallel
  init : ExRel (GenRel rr n n') (e.initGen ρ.init) (e'.initGen ρ'.init)
  noise : ExRel (fun N N' => ∀ g g', GenRel rr n n' g g' → ExRel (GenRel rr n n') (N g) (N' g'))
    (e.mkNoise ρ.noise) (e'.mkNoise ρ'.noise)
  learn : ∀ t m m' g g' el el', rm0 m m' → GenRel rr n n' g g' → GenRel rr n n' el el' →
    ExRel rm (e.updatePm m g el (ρ.learn t)) (e'.updatePm m' g' el' (ρ'.learn t))
  sample : ∀ t m m', rm m m' →
    ExRel (GenRel rr n n') (e.sample m (ρ.sample t)) (e'.sample m' (ρ'.sample t))
  weaken : ∀ m m', rm m m' → rm0 m m'

theorem callRows_sim {f : ℕ → R → C} {f' : ℕ → R' → C} (hf : ∀ k r r', rr r r' → f' k r' = f k r)
    {rows : List R} {rows' : List R'} (h : List.Forall₂ rr rows rows') :
    ∀ k, callRows f' k rows' = callRows f k rows := by
  induction h with
  | nil => intro k; rfl
  | @cons a b l l' hab _ ih =>
    intro k
    have h1 := callRows_append f' k [b] l'
    have h2 := callRows_append f k [a] l
    simp only [List.singleton_append, List.length_singleton] at h1 h2
    rw [h1, h2, ih]
    simp [callRows, hf k a b hab]

theorem zip_sim {rows : List R} {rows' : List R'} (h : List.Forall₂ rr rows rows') :
    ∀ cs : List C, List.Forall₂ (CallRel rr) (rows.zip cs) (rows'.zip cs) := by
  induction h with
  | nil => intro cs; simp
  | cons hab _ ih =>
    intro cs
    cases cs with
    | nil => simp
    | cons c cs => exact .cons ⟨hab, rfl⟩ (ih cs)

/-- Related evaluations. -/
def EvRel (rr : R → R' → Prop) (x : Evaluated R C) (y : Evaluated R' C) : Prop :=
  List.Forall₂ (CallRel rr) x.calls y.calls ∧ y.stored = x.stored

theorem applyAlong_sim {f : ℕ → R → C} {f' : ℕ → R' → C}
    (hf : ∀ k r r', rr r r' → f' k r' = f k r) {rows : List R} {rows' : List R'}
    (h : List.Forall₂ rr rows rows') (k : ℕ) :
    ExRel (EvRel rr) (applyAlong f k rows) (applyAlong f' k rows') := by
  unfold applyAlong
  rw [callRows_sim hf h k]
  cases callRows f k rows with
  | nil => exact .error _
  | cons c cs => exact .ok ⟨zip_sim h _, rfl⟩

theorem take_drop_sim {rows : List R} {rows' : List R'} (h : List.Forall₂ rr rows rows') (n : ℕ) :
    List.Forall₂ rr (rows.take n) (rows'.take n) ∧ List.Forall₂ rr (rows.drop n) (rows'.drop n) := by
  induction h generalizing n with
  | nil => simp
  | cons hab _ ih =>
    cases n with
    | zero => simp_all
    | succ n => simp [hab, ih n]

theorem cut_sim {rows : List R} {rows' : List R'} (h : List.Forall₂ rr rows rows') (o : ℕ)
    (ns : List ℕ) : List.Forall₂ (fun c c' => c'.1 = c.1 ∧ List.Forall₂ rr c.2 c'.2)
      (cut o ns rows) (cut o ns rows') := by
  induction ns generalizing o rows rows' with
  | nil => exact .nil
  | cons n ns ih =>
    obtain ⟨h1, h2⟩ := take_drop_sim h n
    exact .cons ⟨rfl, h1⟩ (ih h2 _)

theorem checkGeneration_sim {env : Env C} (hv : env.Valid) {f : ℕ → R → C} {f' : ℕ → R' → C}
    (hf : ∀ k r r', rr r r' → f' k r' = f k r) {rows : List R} {rows' : List R'}
    (h : List.Forall₂ rr rows rows') (par : Bool) (k : ℕ) :
    ExRel (EvRel rr) (checkGeneration env par f k rows) (checkGeneration env par f' k rows') := by
  cases par with
  | false => exact applyAlong_sim hf h k
  | true =>
    unfold checkGeneration
    simp only [if_true]
    have hl : rows'.length = rows.length := h.length_eq.symm
    rcases Nat.lt_or_ge rows.length env.cpu with hlt | hge
    · rw [parallelApply_error _ _ _ _ _ hlt (hv.sched k),
        parallelApply_error _ _ _ _ _ (by omega) (hv.sched k)]
      exact .error _
    · rw [parallelApply_ok _ _ _ _ _ hv.cpu hge (hv.sched k),
        parallelApply_ok _ _ _ _ _ hv.cpu (by omega) (hv.sched k), callRows_sim hf h k]
      refine .ok ⟨zip_sim h _, ?_⟩
      simp only
      congr 1
      unfold arraySplit
      rw [hl]
      have hc := cut_sim h 0 (splitSizes rows.length env.cpu)
      generalize cut 0 (splitSizes rows.length env.cpu) rows = ch at hc ⊢
      generalize cut 0 (splitSizes rows.length env.cpu) rows' = ch' at hc ⊢
      induction hc with
      | nil => rfl
      | cons hab _ ih =>
        simp only [List.map_cons]
        rw [ih, hab.1, callRows_sim hf hab.2]

theorem getElem?_sim {rows : List R} {rows' : List R'} (h : List.Forall₂ rr rows rows') (i : ℕ) :
    (rows[i]? = none ∧ rows'[i]? = none) ∨ ∃ r r', rows[i]? = some r ∧ rows'[i]? = some r' ∧ rr r r' := by
  induction h generalizing i with
  | nil => simp
  | cons hab _ ih =>
    cases i with
    | zero => right; exact ⟨_, _, rfl, rfl, hab⟩
    | succ i => simpa using ih i

theorem takeIdx_sim {rows : List R} {rows' : List R'} (h : List.Forall₂ rr rows rows')
    (idx : List ℕ) : List.Forall₂ rr (takeIdx rows idx) (takeIdx rows' idx) := by
  unfold takeIdx
  induction idx with
  | nil => simp
  | cons i idx ih =>
    rw [List.filterMap_cons, List.filterMap_cons]
    rcases getElem?_sim h i with ⟨h1, h2⟩ | ⟨r, r', h1, h2, h3⟩
    · rw [h1, h2]; exact ih
    · rw [h1, h2]; exact .cons h3 ih

theorem concat_sim {a b : Gen R} {a' b' : Gen R'} (ha : GenRel rr n n' a a') (hb : GenRel rr n n' b b') :
    ExRel (GenRel rr n n') (a.concat b) (a'.concat b') := by
  unfold Gen.concat
  rw [ha.cols, hb.cols, ha.cols', hb.cols', ha.dt, hb.dt, if_pos rfl, if_pos rfl]
  exact .ok ⟨rfl, rfl, rfl, List.rel_append ha.rows hb.rows⟩

theorem forall₂_flatten_length {α β : Type} {Rel : α → β → Prop} {l : List (List α)}
    {l' : List (List β)} (h : List.Forall₂ (List.Forall₂ Rel) l l') :
    l'.flatten.length = l.flatten.length := by
  induction h with
  | nil => rfl
  | cons hab _ ih => simp only [List.flatten_cons, List.length_append, ih, hab.length_eq]

variable {env : Env C} {rm0 rm : σ → σ' → Prop} {e : Eda R σ Ω} {e' : Eda R' σ' Ω'}
variable {ρ : Rand Ω} {ρ' : Rand Ω'} {f : ℕ → R → C} {f' : ℕ → R' → C} {ftol : C}

theorem truncation_sim (h : EdaSim rr n n' rm0 rm e e' ρ ρ') {rx : σ → σ' → Prop} {s : St R C σ}
    {s' : St R' C σ'} (hs : StRel rr n n' rx s s') :
    ExRel (StRel rr n n' rx) (truncation env e s) (truncation env e' s') := by
  unfold truncation
  have hc := concat_sim hs.gen hs.elite
  rw [hs.evals, hs.evalsElite, h.truncLen, h.eliteLen]
  rcases hg : s.gen.concat s.elite with err | g <;> rcases hg' : s'.gen.concat s'.elite with err' | g'
  · rw [hg, hg'] at hc; cases hc; exact .error _
  · rw [hg, hg'] at hc; cases hc
  · rw [hg, hg'] at hc; cases hc
  · rw [hg, hg'] at hc
    obtain ⟨hc⟩ := hc
    refine .ok ⟨⟨hc.dt, hc.cols, hc.cols', takeIdx_sim hc.rows _⟩, rfl, ⟨hc.dt, hc.cols, hc.cols', takeIdx_sim hc.rows _⟩,
      rfl, hs.bestCost, hs.bestInd, hs.pm, hs.history, hs.notBetter, hs.log⟩

theorem start_sim (hv : env.Valid) (h : EdaSim rr n n' rm0 rm e e' ρ ρ')
    (hf : ∀ k r r', rr r r' → f' k r' = f k r) {m : σ} {m' : σ'} (hm : rm0 m m') :
    ExRel (StRel rr n n' rm0) (start env e f m ρ) (start env e' f' m' ρ') := by
  unfold start
  have hi := h.init
  rcases hg : e.initGen ρ.init with err | g <;> rcases hg' : e'.initGen ρ'.init with err' | g'
  · rw [hg, hg'] at hi; cases hi; exact .error _
  · rw [hg, hg'] at hi; cases hi
  · rw [hg, hg'] at hi; cases hi
  rw [hg, hg'] at hi
  obtain ⟨hi⟩ := hi
  have hc := checkGeneration_sim hv hf hi.rows e.parallel 0
  simp only [h.parallel]
  rcases hev : checkGeneration env e.parallel f 0 g.rows with err | ⟨calls, evals⟩ <;>
    rcases hev' : checkGeneration env e.parallel f' 0 g'.rows with err' | ⟨calls', evals'⟩
  · rw [hev, hev'] at hc; cases hc; exact .error _
  · rw [hev, hev'] at hc; cases hc
  · rw [hev, hev'] at hc; cases hc
  rw [hev, hev'] at hc
  obtain ⟨hcalls, hevals⟩ := hc
  simp only at hcalls hevals
  subst hevals
  have hrows := hi.rows
  rcases hr : g.rows with _ | ⟨r0, rs⟩ <;> rcases hr' : g'.rows with _ | ⟨r0', rs'⟩
  · exact .error _
  · rw [hr, hr'] at hrows; cases hrows
  · rw [hr, hr'] at hrows; cases hrows
  rw [hr, hr'] at hrows
  simp only
  rcases evals' with _ | ⟨c0, cs⟩
  · exact .error _
  simp only
  rcases pyMin (c0 :: cs) with _ | best
  · exact .error _
  simp only
  rcases whereFirst (c0 :: cs) best with _ | i
  · exact .error _
  simp only
  obtain ⟨h0, _⟩ := List.forall₂_cons.1 hrows
  exact .ok ⟨hi, rfl, ⟨hi.dt, hi.cols, hi.cols', .cons h0 .nil⟩, rfl, rfl, .index i, hm, rfl, rfl,
    .cons hcalls .nil⟩

/-- Related outcomes of a pass. -/
def StepRel (rr : R → R' → Prop) (n n' : ℕ) (rm0 : σ → σ' → Prop) (x : St R C σ × Bool)
    (y : St R' C σ' × Bool) : Prop := StRel rr n n' rm0 x.1 y.1 ∧ y.2 = x.2

theorem step_sim (hv : env.Valid) (h : EdaSim rr n n' rm0 rm e e' ρ ρ')
    (hf : ∀ k r r', rr r r' → f' k r' = f k r)
    {N : Gen R → Except PyErr (Gen R)} {N' : Gen R' → Except PyErr (Gen R')}
    (hN : ∀ g g', GenRel rr n n' g g' → ExRel (GenRel rr n n') (N g) (N' g')) (t : ℕ)
    {s : St R C σ} {s' : St R' C σ'} (hs : StRel rr n n' rm0 s s') :
    ExRel (StepRel rr n n' rm0) (step env e f ftol ρ N t s) (step env e' f' ftol ρ' N' t s') := by
  unfold step
  have ht := truncation_sim (env := env) h hs
  rcases hx : truncation env e s with err | s1 <;> rcases hx' : truncation env e' s' with err' | s1'
  · rw [hx, hx'] at ht; cases ht; exact .error _
  · rw [hx, hx'] at ht; cases ht
  · rw [hx, hx'] at ht; cases ht
  rw [hx, hx'] at ht
  obtain ⟨hs1⟩ := ht
  simp only
  have hn := hN _ _ hs1.gen
  rcases hy : N s1.gen with err | noisy <;> rcases hy' : N' s1'.gen with err' | noisy'
  · rw [hy, hy'] at hn; cases hn; exact .error _
  · rw [hy, hy'] at hn; cases hn
  · rw [hy, hy'] at hn; cases hn
  rw [hy, hy'] at hn
  obtain ⟨hn⟩ := hn
  simp only
  have hl := h.learn t _ _ _ _ _ _ hs1.pm hn hs1.elite
  rcases hz : e.updatePm s1.pm noisy s1.elite (ρ.learn t) with err | m <;>
    rcases hz' : e'.updatePm s1'.pm noisy' s1'.elite (ρ'.learn t) with err' | m'
  · rw [hz, hz'] at hl; cases hl; exact .error _
  · rw [hz, hz'] at hl; cases hl
  · rw [hz, hz'] at hl; cases hl
  rw [hz, hz'] at hl
  obtain ⟨hl⟩ := hl
  simp only
  have hsm := h.sample t _ _ hl
  rcases hw : e.sample m (ρ.sample t) with err | g <;>
    rcases hw' : e'.sample m' (ρ'.sample t) with err' | g'
  · rw [hw, hw'] at hsm; cases hsm; exact .error _
  · rw [hw, hw'] at hsm; cases hsm
  · rw [hw, hw'] at hsm; cases hsm
  rw [hw, hw'] at hsm
  obtain ⟨hg⟩ := hsm
  simp only [h.parallel, forall₂_flatten_length hs1.log]
  have hc := checkGeneration_sim hv hf hg.rows e.parallel s1.log.flatten.length
  rcases hev : checkGeneration env e.parallel f s1.log.flatten.length g.rows with
    err | ⟨calls, evals⟩ <;>
    rcases hev' : checkGeneration env e.parallel f' s1.log.flatten.length g'.rows with
      err' | ⟨calls', evals'⟩
  · rw [hev, hev'] at hc; cases hc; exact .error _
  · rw [hev, hev'] at hc; cases hc
  · rw [hev, hev'] at hc; cases hc
  rw [hev, hev'] at hc
  obtain ⟨hcalls, hevals⟩ := hc
  simp only at hcalls hevals
  subst hevals
  simp only
  rcases pyMin evals' with _ | best
  · exact .error _
  simp only
  rcases whereFirst evals' best with _ | i
  · exact .error _
  simp only
  rcases getElem?_sim hg.rows i with ⟨h1, h2⟩ | ⟨r, r', h1, h2, h3⟩
  · rw [h1, h2]; exact .error _
  rw [h1, h2]
  simp only [hs1.bestCost]
  have hlog : List.Forall₂ (List.Forall₂ (CallRel rr)) (s1.log ++ [calls]) (s1'.log ++ [calls']) :=
    List.rel_append hs1.log (.cons hcalls .nil)
  split
  · refine .ok ⟨⟨hg, rfl, hs1.elite, hs1.evalsElite, rfl, .row h3, h.weaken _ _ hl, ?_, rfl, hlog⟩, rfl⟩
    simp only [hs1.history]
  · refine .ok ⟨⟨hg, rfl, hs1.elite, hs1.evalsElite, rfl, hs1.bestInd, h.weaken _ _ hl, ?_, ?_,
      hlog⟩, ?_⟩
    · simp only [hs1.history]
    · simp only [hs1.notBetter]
    · simp only [hs1.notBetter, h.deadIter]

theorem loop_sim (hv : env.Valid) (h : EdaSim rr n n' rm0 rm e e' ρ ρ')
    (hf : ∀ k r r', rr r r' → f' k r' = f k r)
    {N : Gen R → Except PyErr (Gen R)} {N' : Gen R' → Except PyErr (Gen R')}
    (hN : ∀ g g', GenRel rr n n' g g' → ExRel (GenRel rr n n') (N g) (N' g')) (k : ℕ) :
    ∀ (t : ℕ) {s : St R C σ} {s' : St R' C σ'}, StRel rr n n' rm0 s s' →
    ExRel (StRel rr n n' rm0) (loop env e f ftol ρ N k t s) (loop env e' f' ftol ρ' N' k t s') := by
  induction k with
  | zero => intro t s s' hs; exact .ok hs
  | succ k ih =>
    intro t s s' hs
    have hst := step_sim (ftol := ftol) hv h hf hN t hs
    unfold loop
    rcases hx : step env e f ftol ρ N t s with err | ⟨s1, b⟩ <;>
      rcases hx' : step env e' f' ftol ρ' N' t s' with err' | ⟨s1', b'⟩
    · rw [hx, hx'] at hst; cases hst; exact .error _
    · rw [hx, hx'] at hst; cases hst
    · rw [hx, hx'] at hst; cases hst
    rw [hx, hx'] at hst
    obtain ⟨h1, h2⟩ := hst
    simp only at h1 h2
    subst h2
    cases b' with
    | true => exact .ok h1
    | false => exact ih (t + 1) h1

/-- **The runs are related.** -/
theorem minimize_sim (hv : env.Valid) (h : EdaSim rr n n' rm0 rm e e' ρ ρ')
    (hf : ∀ k r r', rr r r' → f' k r' = f k r) {m : σ} {m' : σ'} (hm : rm0 m m') :
    ExRel (fun x y => ResRel rr x.1 y.1 ∧ StRel rr n n' rm0 x.2 y.2)
      (minimize env e f ftol m ρ) (minimize env e' f' ftol m' ρ') := by
  unfold minimize
  have h0 := start_sim hv h hf hm
  rcases hx : start env e f m ρ with err | s <;> rcases hx' : start env e' f' m' ρ' with err' | s'
  · rw [hx, hx'] at h0; cases h0; exact .error _
  · rw [hx, hx'] at h0; cases h0
  · rw [hx, hx'] at h0; cases h0
  rw [hx, hx'] at h0
  obtain ⟨h0⟩ := h0
  simp only
  have hn := h.noise
  rcases hy : e.mkNoise ρ.noise with err | N <;> rcases hy' : e'.mkNoise ρ'.noise with err' | N'
  · rw [hy, hy'] at hn; cases hn; exact .error _
  · rw [hy, hy'] at hn; cases hn
  · rw [hy, hy'] at hn; cases hn
  rw [hy, hy'] at hn
  obtain ⟨hn⟩ := hn
  simp only [h.maxIter]
  have hl := loop_sim (ftol := ftol) hv h hf hn (e.maxIter - 1).toNat 1 h0
  rcases hz : loop env e f ftol ρ N (e.maxIter - 1).toNat 1 s with err | s1 <;>
    rcases hz' : loop env e' f' ftol ρ' N' (e.maxIter - 1).toNat 1 s' with err' | s1'
  · rw [hz, hz'] at hl; cases hl; exact .error _
  · rw [hz, hz'] at hl; cases hl
  · rw [hz, hz'] at hl; cases hl
  rw [hz, hz'] at hl
  obtain ⟨hl⟩ := hl
  refine .ok ⟨⟨hl.bestInd, hl.bestCost, ?_, hl.history⟩, hl⟩
  simp only [hl.history, h.sizeGen]

end Verif
