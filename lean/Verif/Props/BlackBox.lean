/-
C88: a run learns about the cost function only from the calls it makes.
C89: no free lunch.
-/
import Verif.Lemmas.BlackBox
import Verif.Lemmas.NoFreeLunch
import Verif.Props.Binary
import Verif.Props.Hit
import Verif.Props.Loop

set_option linter.unusedSectionVars false

namespace Verif

open PyCost Spec

section
variable {R C σ Ω : Type} [PyCost C]
variable {env : Env C} {e : Eda R σ Ω} {f f' : ℕ → R → C} {ftol : C} {pm : σ} {ρ : Rand Ω}

/-- **C88** A cost function that gives the same answers to all calls of a run leads to the same run: the
same result and the same final state. -/
theorem C88_same_run (hv : env.Valid) {res : EdaResult R C} {s : St R C σ}
    (h : minimize env e f ftol pm ρ = .ok (res, s)) (hq : SameAnswers f f' (queries s) (queries s).length) :
    minimize env e f' ftol pm ρ = .ok (res, s) := minimize_causal hv h hq

/-- **C88** at the head of every pass of the loop. -/
theorem C88_same_visit (hv : env.Valid) {t : ℕ} {s : St R C σ} (h : Visited env e f ftol pm ρ t s)
    (hq : SameAnswers f f' (queries s) (queries s).length) : Visited env e f' ftol pm ρ t s := visited_causal hv h hq

/-- **C88** The next individual to be evaluated is determined by the values of the earlier ones. -/
theorem C88_next (hv : env.Valid) {res res' : EdaResult R C} {s s' : St R C σ}
    (h : minimize env e f ftol pm ρ = .ok (res, s)) (h' : minimize env e f' ftol pm ρ = .ok (res', s')) {N : ℕ}
    (hN : SameAnswers f f' (queries s) N) : (queries s)[N]? = (queries s')[N]? := minimize_next hv h h' hN

open Classical in
/-- **C88** A needle in a haystack: the cost is `c0` at one individual and `c1` elsewhere.  For all but
`queries s` of the places for the needle, where `s` is the end of the run without a needle, it is not found. -/
theorem C88_needle [DecidableEq R] (hv : env.Valid) {c0 c1 : C} {res : EdaResult R C} {s : St R C σ}
    (h : minimize env e (fun _ _ => c1) ftol pm ρ = .ok (res, s)) (X : Finset R) :
    (X.filter (fun x => ∃ res' s', minimize env e (fun _ r => if r = x then c0 else c1) ftol pm ρ = .ok (res', s') ∧
      x ∈ queries s')).card ≤ (queries s).length := by
  refine le_trans (Finset.card_le_card (t := (queries s).toFinset) ?_) (List.toFinset_card_le _)
  intro x hx
  obtain ⟨res', s', h', hask⟩ := (Finset.mem_filter.1 hx).2
  rw [List.mem_toFinset]
  have hN := List.findIdx_lt_length_of_exists (p := fun r => decide (r = x)) ⟨x, hask, by simp⟩
  have hx1 : (queries s')[(queries s').findIdx (fun r => decide (r = x))] = x := by
    simpa using List.findIdx_getElem (xs := queries s') (p := fun r => decide (r = x)) (w := hN)
  have := C88_next hv h' h (N := (queries s').findIdx (fun r => decide (r = x))) (by
    intro j hj r hr
    have hne := List.not_of_lt_findIdx hj
    obtain ⟨hl, rfl⟩ := List.getElem?_eq_some_iff.1 hr
    exact if_neg (by simpa using hne))
  rw [List.getElem?_eq_getElem hN, hx1] at this
  exact List.mem_of_getElem? this.symm

variable [DecidableEq R] [DecidableEq C] {X : Finset R} {Y : Finset C} {d : C}

/-- The individuals evaluated in the run with the cost function `φ`. -/
def Spec.askedBy (env : Env C) (e : Eda R σ Ω) (ftol : C) (pm : σ) (ρ : Rand Ω) (d : C) (φ : X → Y) : Option (List R) :=
  match minimize env e (fun _ => extend d φ) ftol pm ρ with
  | .error _ => none
  | .ok (_, s) => some (queries s)

theorem askedBy_some {φ : X → Y} {q : List R} (h : Spec.askedBy env e ftol pm ρ d φ = some q) :
    ∃ res s, minimize env e (fun _ => extend d φ) ftol pm ρ = .ok (res, s) ∧ q = queries s := by
  unfold Spec.askedBy at h
  split at h
  · cases h
  · rename_i res s hm
    exact ⟨res, s, hm, (Option.some.inj h).symm⟩

theorem askedBy_determined (hv : env.Valid) : Determined (X := X) (Y := Y) d (Spec.askedBy env e ftol pm ρ d) := by
  intro φ φ' q q' hq hq' M hM
  obtain ⟨res, s, h, rfl⟩ := askedBy_some hq
  obtain ⟨res', s', h', rfl⟩ := askedBy_some hq'
  refine minimize_next hv h h' fun j hj r hr => ?_
  refine hM r ?_
  rw [List.mem_iff_getElem?]
  exact ⟨j, by rw [List.getElem?_take_of_lt hj]; exact hr⟩

open Classical in
/-- **C89**, upper bound: `Y ^ X` cost functions on a finite set of individuals.  For at most `|B| · |Y|^(|X| - m)`
of them the values of the first `m` different individuals evaluated by a run belong to `B`. -/
theorem C89_at_most (hv : env.Valid)
    (hX : ∀ (φ : X → Y) res s, minimize env e (fun _ => extend d φ) ftol pm ρ = .ok (res, s) → ∀ r ∈ queries s, r ∈ X)
    (m : ℕ) (B : Finset (List C)) :
    (Finset.univ.filter (fun φ : X → Y => ∃ res s, minimize env e (fun _ => extend d φ) ftol pm ρ = .ok (res, s) ∧
      m ≤ (firsts (queries s)).length ∧ ((firsts (queries s)).take m).map (extend d φ) ∈ B)).card ≤
      B.card * Y.card ^ (X.card - m) := by
  refine le_trans (Finset.card_le_card ?_) (count_le_set (d := d) (askedBy_determined (ftol := ftol) (pm := pm) (ρ := ρ) (e := e) hv) ?_ m B)
  · intro φ hφ
    obtain ⟨res, s, h, hm, hB⟩ := (Finset.mem_filter.1 hφ).2
    refine Finset.mem_filter.2 ⟨Finset.mem_univ _, _, hB, queries s, ?_, hm, rfl⟩
    unfold Spec.askedBy
    rw [h]
  · intro φ q hq
    obtain ⟨res, s, h, rfl⟩ := askedBy_some hq
    exact hX φ res s h

open Classical in
/-- **C89** If a run evaluates at least `m` different individuals whatever the cost function, then each list
of `m` values is seen equally often: for `|Y|^(|X| - m)` cost functions. -/
theorem C89_equally_often (hv : env.Valid) {m : ℕ}
    (hrun : ∀ φ : X → Y, ∃ res s, minimize env e (fun _ => extend d φ) ftol pm ρ = .ok (res, s) ∧
      (∀ r ∈ queries s, r ∈ X) ∧ m ≤ (firsts (queries s)).length)
    {y : List C} (hl : y.length = m) (hy : ∀ c ∈ y, c ∈ Y) :
    (Finset.univ.filter (fun φ : X → Y => ∃ res s, minimize env e (fun _ => extend d φ) ftol pm ρ = .ok (res, s) ∧
      ((firsts (queries s)).take m).map (extend d φ) = y)).card = Y.card ^ (X.card - m) := by
  rw [← count_eq (d := d) (askedBy_determined (ftol := ftol) (pm := pm) (ρ := ρ) (e := e) hv) ?_ ?_ hl hy]
  · congr 1
    ext φ
    simp only [Finset.mem_filter, Finset.mem_univ, true_and]
    obtain ⟨res, s, h, hX, hm⟩ := hrun φ
    constructor
    · rintro ⟨res', s', h', hy'⟩
      obtain ⟨rfl, rfl⟩ := Prod.mk.inj (Except.ok.inj (h.symm.trans h'))
      exact ⟨queries s, by unfold Spec.askedBy; rw [h], hm, hy'⟩
    · rintro ⟨q, hq, -, hy'⟩
      obtain ⟨res', s', h', rfl⟩ := askedBy_some hq
      exact ⟨res', s', h', hy'⟩
  · intro φ q hq
    obtain ⟨res', s', h', rfl⟩ := askedBy_some hq
    obtain ⟨res, s, h, hX, hm⟩ := hrun φ
    obtain ⟨rfl, rfl⟩ := Prod.mk.inj (Except.ok.inj (h.symm.trans h'))
    exact hX
  · intro φ
    obtain ⟨res, s, h, hX, hm⟩ := hrun φ
    exact ⟨queries s, by unfold Spec.askedBy; rw [h], hm⟩

open Classical in
/-- **C89** No free lunch: two runs (of the same or of different algorithms, with any settings and draws) that
always evaluate at least `m` different individuals see each list of `m` values for the same number of cost
functions. -/
theorem C89_no_free_lunch {σ' Ω' : Type} {env' : Env C} {e' : Eda R σ' Ω'} {ftol' : C} {pm' : σ'} {ρ' : Rand Ω'}
    (hv : env.Valid) (hv' : env'.Valid) {m : ℕ}
    (hrun : ∀ φ : X → Y, ∃ res s, minimize env e (fun _ => extend d φ) ftol pm ρ = .ok (res, s) ∧
      (∀ r ∈ queries s, r ∈ X) ∧ m ≤ (firsts (queries s)).length)
    (hrun' : ∀ φ : X → Y, ∃ res s, minimize env' e' (fun _ => extend d φ) ftol' pm' ρ' = .ok (res, s) ∧
      (∀ r ∈ queries s, r ∈ X) ∧ m ≤ (firsts (queries s)).length)
    {y : List C} (hl : y.length = m) (hy : ∀ c ∈ y, c ∈ Y) :
    (Finset.univ.filter (fun φ : X → Y => ∃ res s, minimize env e (fun _ => extend d φ) ftol pm ρ = .ok (res, s) ∧
      ((firsts (queries s)).take m).map (extend d φ) = y)).card =
    (Finset.univ.filter (fun φ : X → Y => ∃ res s, minimize env' e' (fun _ => extend d φ) ftol' pm' ρ' = .ok (res, s) ∧
      ((firsts (queries s)).take m).map (extend d φ) = y)).card :=
  (C89_equally_often hv hrun hl hy).trans (C89_equally_often hv' hrun' hl hy).symm

end

section
variable {C : Type} [PyCost C] {env : Env C} {cfg : UMDAdCfg ℝ} {fl : ℝ → ℝ} {ρ : Rand (Draws ℝ)}
variable {e : Eda (List ℝ) (UniBin ℝ) (Draws ℝ)} {b : UniBin ℝ} {f : ℕ → List ℝ → C} {ftol : C}

/-- `UMDAd` evaluates binary individuals only (if those of `init_data` are binary). -/
theorem umdad_asked (hv : env.Valid) (h : UMDAd fl cfg = .ok (e, b)) (hw : cfg.WF)
    (hdata : ∀ d, cfg.base.initData = some d → ∀ r ∈ d.rows, BinaryRow cfg.base.nVars r)
    {res : EdaResult (List ℝ) C} {s : St (List ℝ) C (UniBin ℝ)} (hrun : minimize env e f ftol b ρ = .ok (res, s)) :
    ∀ r ∈ queries s, BinaryRow cfg.base.nVars r := by
  obtain ⟨hm, hlu, hb⟩ := UMDAd_ok h
  obtain ⟨hp, hn⟩ := umdadInit_length hw
  have hr := umdad_rows (ρ := ρ) h hw
  have inv : RowInv e ρ (fun r => BinaryRow cfg.base.nVars r) (fun g => Rect cfg.base.nVars g.rows)
      (fun b => b.n = cfg.base.nVars ∧ b.lb = cfg.lower ∧ b.ub = cfg.upper ∧ b.p.length = cfg.base.nVars)
      (fun _ => True) := by
    constructor
    · intro g hg
      cases hd : cfg.base.initData with
      | none =>
        rw [hm.initNone hd] at hg
        obtain ⟨_, h2, _, h4⟩ := C21_sample_binary (by rw [hp, hn]) hg
        intro r hr
        rw [← hn]; exact h4 r hr
      | some d =>
        rw [(hm.initSome d hd).2] at hg
        obtain rfl := Except.ok.inj hg
        exact hdata d hd
    · intro nz g g' hnz hg hgg
      exact hr.noise nz g g' hnz (fun r h => (hg r h).1) hgg
    · intro pm g el t pm' hI hN hel hu
      exact ⟨(hr.learn pm g el t pm' hI hN (fun r h => (hel r h).1) hu).1, trivial⟩
    · intro pm t g hI _ hs
      rw [hm.sample] at hs
      obtain ⟨_, _, _, h4⟩ := C21_sample_binary (by rw [hI.2.2.2, hI.1]) hs
      intro r hr
      rw [← hI.1]; exact h4 r hr
  have := (allRows_minimize hv inv (by subst hb; simp) hrun).log
  intro r hr
  obtain ⟨p, hp, rfl⟩ := List.mem_map.1 hr
  exact this p hp

/-- The binary strings of length `n`. -/
noncomputable def Spec.cube (n : ℕ) : Finset (List ℝ) :=
  Finset.univ.image (fun v : Fin n → Bool => List.ofFn (fun i => if v i then (1 : ℝ) else 0))

theorem mem_cube {n : ℕ} {r : List ℝ} : r ∈ Spec.cube n ↔ BinaryRow n r := by
  unfold Spec.cube
  rw [Finset.mem_image]
  constructor
  · rintro ⟨v, -, rfl⟩
    refine ⟨by simp, fun x hx => ?_⟩
    obtain ⟨i, rfl⟩ := (List.mem_ofFn' _ _).1 hx
    dsimp only
    cases v i <;> simp
  · rintro ⟨hl, h⟩
    subst hl
    refine ⟨fun i => decide (r[i] = 1), Finset.mem_univ _, ?_⟩
    apply List.ext_getElem
    · simp
    · intro j h1 h2
      rw [List.getElem_ofFn]
      rcases h r[j] (List.getElem_mem _) with h0 | h0
      · simp [h0]
      · simp [h0]

theorem card_cube (n : ℕ) : (Spec.cube n).card = 2 ^ n := by
  unfold Spec.cube
  rw [Finset.card_image_of_injective, Finset.card_univ, Fintype.card_fun, Fintype.card_bool, Fintype.card_fin]
  intro v w h
  have := List.ofFn_injective h
  funext i
  have := congrFun this i
  cases hv : v i <;> cases hw : w i <;> simp [hv, hw] at this ⊢

open Classical in
/-- **C88** for `UMDAd`: the needle is found at no more than `n_fev` of the `2 ^ n` places, where `n_fev` is
the number of evaluations of the run without a needle. -/
theorem C88_UMDAd_needle [LawfulCost C] [UniformCost C] (hv : env.Valid) (h : UMDAd fl cfg = .ok (e, b))
    (hd : cfg.base.initData = none) {c0 c1 : C} (hc : c0 ≠ c1) {res : EdaResult (List ℝ) C}
    {s : St (List ℝ) C (UniBin ℝ)} (hrun : minimize env e (fun _ _ => c1) ftol b ρ = .ok (res, s)) :
    (((Spec.cube cfg.base.nVars).filter (fun x => ∃ res' s',
      minimize env e (fun _ r => if r = x then c0 else c1) ftol b ρ = .ok (res', s') ∧
        res'.bestCost = c0)).card : ℤ) ≤ res.nFev := by
  rw [C08_UMDAd hv h hd hrun, ← asked_length]
  refine Int.ofNat_le.2 (le_trans (Finset.card_le_card ?_) (C88_needle hv (c0 := c0) hrun (Spec.cube cfg.base.nVars)))
  intro x hx
  obtain ⟨hx, res', s', h', hb⟩ := Finset.mem_filter.1 hx
  refine Finset.mem_filter.2 ⟨hx, res', s', h', ?_⟩
  obtain ⟨_, k, r, hlog, hcost⟩ := C01_best_cost_observed hv h'
  rw [hb] at hcost
  have hr : r = x := by
    by_contra hne
    rw [if_neg hne] at hcost
    exact hc hcost
  rw [← hr]
  unfold queries
  exact List.mem_map.2 ⟨_, List.mem_of_getElem? hlog, rfl⟩

open Classical in
/-- **C89** for `UMDAd`: whatever the settings and the draws. -/
theorem C89_UMDAd [DecidableEq C] (hv : env.Valid) (h : UMDAd fl cfg = .ok (e, b)) (hw : cfg.WF)
    (hdata : ∀ d, cfg.base.initData = some d → ∀ r ∈ d.rows, BinaryRow cfg.base.nVars r)
    {Y : Finset C} {d : C} (m : ℕ) (B : Finset (List C)) :
    (Finset.univ.filter (fun φ : Spec.cube cfg.base.nVars → Y => ∃ res s,
      minimize env e (fun _ => extend d φ) ftol b ρ = .ok (res, s) ∧
      m ≤ (firsts (queries s)).length ∧ ((firsts (queries s)).take m).map (extend d φ) ∈ B)).card ≤
      B.card * Y.card ^ (2 ^ cfg.base.nVars - m) := by
  rw [← card_cube]
  exact C89_at_most hv (fun φ res s hrun r hr => mem_cube.2 (umdad_asked hv h hw hdata hrun r hr)) m B

end

/-- A run with given first individuals and no pass of the loop. -/
noncomputable def Ex.givenCfg : UMDAdCfg ℝ :=
  { base := { sizeGen := 2, maxIter := 1, deadIter := 0, nVars := 2, alpha := 1, eliteFactor := 1/2, parallel := false
              initData := some { dt := .int, cols := 2, rows := [[0, 1], [1, 1]] }, wNoise := none }
    vector := none, lower := 1/5, upper := 4/5 }

theorem Ex.given_asked {e : Eda (List ℝ) (UniBin ℝ) (Draws ℝ)} {b : UniBin ℝ} (h : UMDAd id Ex.givenCfg = .ok (e, b))
    {f : ℕ → List ℝ → ℝ} {ρ : Rand (Draws ℝ)} {res : EdaResult (List ℝ) ℝ} {s : St (List ℝ) ℝ (UniBin ℝ)}
    (hrun : minimize realEnv e f 0 b ρ = .ok (res, s)) : queries s = [[0, 1], [1, 1]] := by
  obtain ⟨hm, -⟩ := UMDAd_ok h
  obtain ⟨s0, noise, h0, -, hl, -⟩ := minimize_ok hrun
  rw [hm.maxIter] at hl
  have : (1 - 1 : ℤ).toNat = 0 := rfl
  simp only [Ex.givenCfg, this, loop, Except.ok.injEq] at hl
  subst hl
  rw [start_asked realEnv_valid h0]
  obtain ⟨ev, r0, c0, best, i, hs⟩ := start_ok h0
  have := hs.init
  rw [(hm.initSome _ rfl).2] at this
  rw [← Except.ok.inj this]

theorem Ex.given_runs {e : Eda (List ℝ) (UniBin ℝ) (Draws ℝ)} {b : UniBin ℝ} (h : UMDAd id Ex.givenCfg = .ok (e, b))
    {f : ℕ → List ℝ → ℝ} {ρ : Rand (Draws ℝ)} : ∃ res s, minimize realEnv e f 0 b ρ = .ok (res, s) := by
  obtain ⟨e', b', h', hrun⟩ := C53_UMDAd_never_raises (fl := id) (cfg := Ex.givenCfg) (env := realEnv) (f := f)
    (ftol := 0) (ρ := ρ) realEnv_valid ⟨by simp [Ex.givenCfg], by
      intro d hd r hr
      obtain rfl := Option.some.inj hd
      rcases List.mem_cons.1 hr with rfl | hr
      · rfl
      · rw [List.mem_singleton.1 hr]; rfl⟩ (by simp [Ex.givenCfg]) (by norm_num [Ex.givenCfg]) (by
      intro d hd
      obtain rfl := Option.some.inj hd
      exact ⟨rfl, by simp, by simp, by simp [Ex.givenCfg]⟩) (by norm_num [Ex.givenCfg]) (by simp [Ex.givenCfg])
    (by norm_num [Ex.givenCfg, selLen, pyInt, Num.truncZ]) (by intro k r; simp [IsNum, PyCost.eq])
  rw [h] at h'
  obtain ⟨rfl, rfl⟩ := Prod.mk.inj (Except.ok.inj h')
  exact hrun

open Classical in
/-- Of the 16 functions from `{0, 1}²` to `{0, 1}`, four have the values 1 and 0 at the two given individuals. -/
example {e : Eda (List ℝ) (UniBin ℝ) (Draws ℝ)} {b : UniBin ℝ} (h : UMDAd id Ex.givenCfg = .ok (e, b))
    (ρ : Rand (Draws ℝ)) :
    (Finset.univ.filter (fun φ : Spec.cube 2 → ({0, 1} : Finset ℝ) => ∃ res s,
      minimize realEnv e (fun _ => extend 0 φ) 0 b ρ = .ok (res, s) ∧
      ((firsts (queries s)).take 2).map (extend 0 φ) = [1, 0])).card = 4 := by
  rw [C89_equally_often (m := 2) (y := [1, 0]) realEnv_valid ?_ rfl (by simp), card_cube]
  · rw [Finset.card_pair (by norm_num)]; norm_num
  · intro φ
    obtain ⟨res, s, hrun⟩ := Ex.given_runs (f := fun _ => extend 0 φ) (ρ := ρ) h
    refine ⟨res, s, hrun, ?_, ?_⟩
    · rw [Ex.given_asked h hrun]
      intro r hr
      rw [mem_cube]
      rcases List.mem_cons.1 hr with rfl | hr
      · exact ⟨rfl, by simp⟩
      · rw [List.mem_singleton.1 hr]; exact ⟨rfl, by simp⟩
    · rw [Ex.given_asked h hrun]
      norm_num [firsts]

/-- Changing the cost of `[0, 0]`, which is not evaluated, changes nothing. -/
example {e : Eda (List ℝ) (UniBin ℝ) (Draws ℝ)} {b : UniBin ℝ} (h : UMDAd id Ex.givenCfg = .ok (e, b))
    (ρ : Rand (Draws ℝ)) {res : EdaResult (List ℝ) ℝ} {s : St (List ℝ) ℝ (UniBin ℝ)}
    (hrun : minimize realEnv e (fun _ r => r.sum) 0 b ρ = .ok (res, s)) :
    minimize realEnv e (fun _ r => if r.sum = 0 then -7 else r.sum) 0 b ρ = .ok (res, s) := by
  refine C88_same_run realEnv_valid hrun ?_
  rw [Ex.given_asked h hrun]
  intro j hj r hr
  have : r ∈ ([[0, 1], [1, 1]] : List (List ℝ)) := List.mem_of_getElem? hr
  rcases List.mem_cons.1 this with rfl | hr
  · norm_num
  · rw [List.mem_singleton.1 hr]; norm_num

open Classical in
/-- With at most 12 evaluations `UMDAd` finds a needle among the 4 strings of two bits at no more places than
it evaluates. -/
example {e : Eda (List ℝ) (UniBin ℝ) (Draws ℝ)} {b : UniBin ℝ} (h : UMDAd id realCfg = .ok (e, b)) (ρ : Rand (Draws ℝ))
    {res : EdaResult (List ℝ) ℝ} {s : St (List ℝ) ℝ (UniBin ℝ)}
    (hrun : minimize realEnv e (fun _ _ => (1 : ℝ)) 0 b ρ = .ok (res, s)) :
    (((Spec.cube 2).filter (fun x => ∃ (res' : EdaResult (List ℝ) ℝ) (s' : St (List ℝ) ℝ (UniBin ℝ)),
      minimize realEnv e (fun _ r => if r = x then (0 : ℝ) else 1) 0 b ρ = .ok (res', s') ∧
        res'.bestCost = 0)).card : ℤ) ≤ res.nFev :=
  C88_UMDAd_needle realEnv_valid h rfl (by norm_num : (0 : ℝ) ≠ 1) hrun

end Verif
