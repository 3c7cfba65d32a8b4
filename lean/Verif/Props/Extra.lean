/-
Further statements about C26 (`EMNA` runs), C30 (first generations), C67 (title and file of the figure),
C71 (structures with cycles) and C78 (one dimension).
-/
import Verif.Props.MultiGauss
import Verif.Props.Kde
import Verif.Props.Archive
import Verif.Props.Columns
import Verif.Props.Plot
import Verif.Props.Cec

set_option linter.unusedSectionVars false

namespace Verif

open Spec PyCost

section

variable {K : Type} [Field K] [LinearOrder K] [IsStrictOrderedRing K] [FloorRing K]
variable {C : Type} [PyCost C] {env : Env C} {f : ℕ → List K → C} {ftol : C} {ρ : Rand (Draws K)}

/-- **C26** in every run of `EMNA`, from the second generation on, the off-diagonal entries of the matrix
are covariances of the data learned from, forced into `[lower_factor, upper_factor]`. -/
theorem C26_EMNA_run {fl sq : K → K} {fac} {cfg : EMNACfg K} {e b} (h : EMNA fl sq fac cfg = .ok (e, b))
    (hlu : cfg.lowerFactor ≤ cfg.upperFactor) {t : ℕ} {s : St (List K) C (MultiGauss K)}
    (hs : Visited env e f ftol b ρ (t + 2) s) {i j : ℕ} (hi : i < cfg.base.nVars)
    (hj : j < cfg.base.nVars) (hij : i ≠ j) :
    cfg.lowerFactor ≤ entry s.pm.cov i j ∧ entry s.pm.cov i j ≤ cfg.upperFactor ∧
      ∃ rows : List (List K), entry s.pm.cov i j =
        clip cfg.lowerFactor cfg.upperFactor (covariance (col rows i) (col rows j)) := by
  obtain ⟨he, _, hb⟩ := EMNA_ok h
  have hm := mkEda_ok he
  let Good : MultiGauss K → Prop := fun m =>
    m.n = cfg.base.nVars ∧ m.lb = cfg.lowerFactor ∧ m.ub = cfg.upperFactor
  have hlearn : ∀ (m m' : MultiGauss K) g, Good m → m.learn sq g = .ok m' → Good m' ∧
      ∀ i j, i < cfg.base.nVars → j < cfg.base.nVars → i ≠ j → ∃ rows : List (List K), entry m'.cov i j =
        clip cfg.lowerFactor cfg.upperFactor (covariance (col rows i) (col rows j)) := by
    rintro m m' g ⟨h1, h2, h3⟩ hl
    unfold MultiGauss.learn at hl
    split at hl
    · cases hl
    split at hl
    · cases hl
    split at hl
    · cases hl
    obtain rfl := Except.ok.inj hl
    refine ⟨⟨h1, h2, h3⟩, fun i j hi hj hij => ⟨g.rows, ?_⟩⟩
    rw [entry_map (by omega) (by omega), if_neg hij, h2, h3, clampEntry_eq hlu, covEntry_eq]
  have hstep : ∀ noise t (s s' : St (List K) C (MultiGauss K)) q, Good s.pm →
      step env e f ftol ρ noise t s = .ok (s', q) → Good s'.pm ∧
      ∀ i j, i < cfg.base.nVars → j < cfg.base.nVars → i ≠ j → ∃ rows : List (List K), entry s'.pm.cov i j =
        clip cfg.lowerFactor cfg.upperFactor (covariance (col rows i) (col rows j)) := by
    intro noise t s s' q hg hst
    obtain ⟨s1, noisy, ev, best, k, ind, hok⟩ := step_ok hst
    have hu := hok.update
    rw [hm.updatePm] at hu
    exact hlearn s.pm _ noisy hg hu
  have hall : ∀ {t : ℕ} {s : St (List K) C (MultiGauss K)}, Visited env e f ftol b ρ t s → Good s.pm := by
    intro t s hv
    refine visited_inv (fun s => Good s.pm) ?_ ?_ hv
    · intro s0 h0
      obtain ⟨_, _, _, _, _, h1⟩ := start_ok h0
      rw [h1.pm, hb]
      exact ⟨rfl, rfl, rfl⟩
    · intro noise t s s' q hg _ hst
      exact (hstep noise t s s' q hg hst).1
  cases hs with
  | next hv hn hst =>
    obtain ⟨rows, hr⟩ := (hstep _ _ _ _ _ (hall hv) hst).2 i j hi hj hij
    rw [hr]
    exact ⟨le_max_left _ _, max_le hlu (min_le_left _ _), rows, rfl⟩

/-- The first generation of an algorithm with uniform initialization. -/
theorem uniform_first {σ : Type} {fl : K → K} {base : BaseCfg K (List K)} {n : ℕ} {lo up : Bound K} {size : ℤ}
    {learn : σ → Gen (List K) → Gen (List K) → Draws K → Except PyErr σ}
    {sample : σ → Draws K → Except PyErr (Gen (List K))} {e : Eda (List K) σ (Draws K)} {b : σ}
    (he : mkEda fl base (uniformInitSample fl n lo up size) learn sample = .ok e) (hd : base.initData = none)
    {s : St (List K) C σ} (h0 : start env e f b ρ = .ok s) :
    ∃ u, UniformInit.new n lo up = .ok u ∧ u.sample fl size ρ.init = .ok s.gen := by
  have hm := mkEda_ok he
  obtain ⟨_, _, _, _, _, hs⟩ := start_ok h0
  have hi := hs.init
  rw [hm.initNone hd] at hi
  unfold uniformInitSample at hi
  split at hi
  · cases hi
  · rename_i u hu
    exact ⟨u, hu, hi⟩

/-- The rows lie in the box `[lower, upper)` (a variable with equal bounds has their value). -/
def Spec.InBox (n : ℕ) (lo up : Bound K) (rows : List (List K)) : Prop :=
  ∀ r ∈ rows, ∀ (j : ℕ) (l h : K), j < n → boundOf lo j = some l → boundOf up j = some h → l ≤ h →
    ∃ v, r[j]? = some v ∧ l ≤ v ∧ v ≤ h ∧ (l < h → v < h)

section

variable {S L : Type} [DecidableEq L] {sq : K → K} {b1 : MultiGauss K}

/-- **C30** `EMNA` without `init_data`: the first generation lies within the bounds. -/
theorem C30_EMNA {fac} {cfg : EMNACfg K} {e b} (h : EMNA id sq fac cfg = .ok (e, b))
    (hd : cfg.base.initData = none) (hω : Unit01 ρ.init) {s : St (List K) C (MultiGauss K)}
    (h0 : start env e f b ρ = .ok s) : InBox cfg.base.nVars cfg.lower cfg.upper s.gen.rows := by
  obtain ⟨u, hu, hs⟩ := uniform_first (EMNA_ok h).1 hd h0
  exact (C30_within_bounds_partial hu hω hs).2.2.2

/-- **C30** `EGNA` without `init_data`: the first generation lies within the bounds. -/
theorem C30_EGNA {lib : NetLib S L K (Draws K)} {name : ℕ → L} {cfg : NetCfg K L} {e b}
    (h : EGNA id lib name cfg = .ok (e, b)) (hd : cfg.base.initData = none) (hω : Unit01 ρ.init)
    {s : St (List K) C (BNet S L K)} (h0 : start env e f b ρ = .ok s) :
    InBox cfg.base.nVars cfg.lower cfg.upper s.gen.rows := by
  obtain ⟨u, hu, hs⟩ := uniform_first (EGNA_ok h).1 hd h0
  exact (C30_within_bounds_partial hu hω hs).2.2.2

/-- **C30** `SPEDA` and `MultivariateKEDA` without `init_data`: the first generation lies within the
bounds. -/
theorem C30_archive {kind : BnType} {lib : NetLib S L K (Draws K)} {name : ℕ → L} {l : Num K}
    {cfg : NetCfg K L} {e a} (h : archEda kind id lib name l cfg = .ok (e, a))
    (hd : cfg.base.initData = none) (hω : Unit01 ρ.init) {s : St (List K) C (Arch S L K)}
    (h0 : start env e f a ρ = .ok s) : InBox cfg.base.nVars cfg.lower cfg.upper s.gen.rows := by
  obtain ⟨u, hu, hs⟩ := uniform_first (archEda_ok h).1 hd h0
  exact (C30_within_bounds_partial hu hω hs).2.2.2

/-- **C30** `UnivariateKEDA` without `init_data`: the first generation lies within the bounds. -/
theorem C30_UnivariateKEDA {isPD h2 fac} {cfg : KedaCfg K} {e b}
    (h : UnivariateKEDA id isPD h2 fac cfg = .ok (e, b)) (hd : cfg.base.initData = none)
    (hω : Unit01 ρ.init) {s : St (List K) C (UniKDE K)} (h0 : start env e f b ρ = .ok s) :
    InBox cfg.base.nVars cfg.lower cfg.upper s.gen.rows := by
  obtain ⟨u, hu, hs⟩ := uniform_first (UnivariateKEDA_ok h).1 hd h0
  exact (C30_within_bounds_partial hu hω hs).2.2.2

end

end

/-! ### C67 -/

section

variable {L P : Type} [DecidableEq L] [DecidableEq P]

/-- **C67** whenever `plot_bn` returns, the figure has the given title and is saved to the given file;
without one (or if it is the empty string) it has no title, or is not saved. -/
theorem C67_title {grid : ℤ × ℤ → P} {arcs : List (L × L)} {vars : List L} {pos : Option (List (L × P))}
    {title file : Option String} {fig : Figure L P} (h : plotBn grid arcs vars pos title file = .ok fig) :
    (∀ s, fig.title = some s ↔ title = some s ∧ s ≠ "") ∧
    (∀ s, fig.savedTo = some s ↔ file = some s ∧ s ≠ "") := by
  have hp : ∃ ps, usedPos grid vars pos = .ok ps := by
    unfold plotBn at h
    unfold usedPos
    rcases pos with _ | _ | ⟨p, q⟩
    · simp only at h ⊢
      cases hx : setPositions vars <;> rw [hx] at h
      · cases h
      · exact ⟨_, rfl⟩
    · simp only at h ⊢
      cases hx : setPositions vars <;> rw [hx] at h
      · cases h
      · exact ⟨_, rfl⟩
    · exact ⟨_, rfl⟩
  obtain ⟨ps, hps⟩ := hp
  rw [plotBn_unfold _ _ _ _ _ _ hps] at h
  have key : ∀ (o : Option String) s, truthyStr o = some s ↔ o = some s ∧ s ≠ "" := by
    intro o s
    cases o with
    | none => simp [truthyStr]
    | some x =>
      unfold truthyStr
      by_cases hx : x = ""
      · simp only [hx, if_true]
        constructor
        · intro h; cases h
        · rintro ⟨h1, h2⟩; exact absurd (Option.some.inj h1).symm h2
      · simp only [if_neg hx, Option.some.injEq]
        constructor
        · rintro rfl; exact ⟨rfl, hx⟩
        · exact fun h => h.1
  simp only [Except.bind] at h
  split at h
  · cases h
  split at h
  · cases h
  split at h
  · cases h
  obtain rfl := Except.ok.inj h
  exact ⟨key title, key file⟩

end

/-! ### C71 -/

section

variable {P L V Ω : Type} [DecidableEq L] {lib : PgmLib P L V Ω}

/-- The arcs contain a directed cycle (a loop included). -/
def Spec.HasCycle (arcs : List (L × L)) : Prop :=
  ∃ v, Relation.TransGen (fun a b => (a, b) ∈ arcs) v v

theorem addEdge_acyclic {net net' : PgmNet P L} {u v : L} (h : net.addEdge u v = .ok net')
    (hc : ¬ HasCycle net.arcs) (hm : ∀ a ∈ net.arcs, a.1 ∈ net.nodes ∧ a.2 ∈ net.nodes) :
    ¬ HasCycle net'.arcs ∧ (∀ a ∈ net'.arcs, a.1 ∈ net'.nodes ∧ a.2 ∈ net'.nodes) ∧
      ∀ a, a ∈ net'.arcs ↔ a ∈ net.arcs ∨ a = (u, v) := by
  unfold PgmNet.addEdge at h
  split at h
  · cases h
  rename_i huv
  split at h
  · cases h
  rename_i hno
  obtain rfl := Except.ok.inj h
  have hmem : ∀ a, a ∈ (if (u, v) ∈ net.arcs then net.arcs else net.arcs ++ [(u, v)]) ↔
      a ∈ net.arcs ∨ a = (u, v) := by
    intro a
    split
    · rename_i hin
      exact ⟨Or.inl, fun h => h.elim id (fun h => h ▸ hin)⟩
    · simp
  have hins : ∀ (l : List L) x y, y ∈ insertNode l x ↔ y ∈ l ∨ y = x := by
    intro l x y
    unfold insertNode
    split
    · rename_i hx
      exact ⟨Or.inl, fun h => h.elim id (fun h => h ▸ hx)⟩
    · simp
  -- no path from `v` to `u` among the old arcs
  have hpath : ¬ HasPath net.arcs v u := by
    intro hp
    apply hno
    refine ⟨?_, ?_, hp⟩
    · rcases Relation.ReflTransGen.cases_tail hp with h | ⟨c, _, h⟩
      · exact absurd h huv
      · exact (hm _ h).2
    · rcases Relation.ReflTransGen.cases_head hp with h | ⟨c, h, _⟩
      · exact absurd h.symm huv
      · exact (hm _ h).1
  have hdec : ∀ a b, Relation.ReflTransGen
      (fun a b => (a, b) ∈ (if (u, v) ∈ net.arcs then net.arcs else net.arcs ++ [(u, v)])) a b →
      HasPath net.arcs a b ∨ (HasPath net.arcs a u ∧ HasPath net.arcs v b) := by
    intro a b hab
    induction hab with
    | refl => exact Or.inl .refl
    | tail _ hbc ih =>
      rcases (hmem _).1 hbc with h | h
      · rcases ih with ih | ⟨i1, i2⟩
        · exact Or.inl (ih.tail h)
        · exact Or.inr ⟨i1, i2.tail h⟩
      · obtain ⟨rfl, rfl⟩ := Prod.mk.inj h
        rcases ih with ih | ⟨i1, i2⟩
        · exact Or.inr ⟨ih, .refl⟩
        · exact Or.inr ⟨i1, .refl⟩
  refine ⟨?_, ?_, hmem⟩
  · rintro ⟨w, hw⟩
    obtain ⟨c, h1, h2⟩ := Relation.TransGen.head'_iff.1 hw
    rcases (hmem _).1 h1 with h | h
    · rcases hdec _ _ h2 with hp | ⟨p1, p2⟩
      · exact hc ⟨w, Relation.TransGen.head'_iff.2 ⟨c, h, hp⟩⟩
      · exact hpath (p2.trans ((Relation.ReflTransGen.single h).trans p1))
    · obtain ⟨rfl, rfl⟩ := Prod.mk.inj h
      rcases hdec _ _ h2 with hp | ⟨_, p2⟩
      · exact hpath hp
      · exact hpath p2
  · intro a ha
    rcases (hmem a).1 ha with h | rfl
    · exact ⟨(hins _ _ _).2 (Or.inl ((hins _ _ _).2 (Or.inl (hm a h).1))),
        (hins _ _ _).2 (Or.inl ((hins _ _ _).2 (Or.inl (hm a h).2)))⟩
    · exact ⟨(hins _ _ _).2 (Or.inl ((hins _ _ _).2 (Or.inr rfl))), (hins _ _ _).2 (Or.inr rfl)⟩

theorem addEdges_acyclic {found : List (L × L)} {net net' : PgmNet P L} (h : net.addEdges found = .ok net')
    (hc : ¬ HasCycle net.arcs) (hm : ∀ a ∈ net.arcs, a.1 ∈ net.nodes ∧ a.2 ∈ net.nodes) :
    ¬ HasCycle net'.arcs ∧ ∀ a, a ∈ net'.arcs ↔ a ∈ net.arcs ∨ a ∈ found := by
  induction found generalizing net with
  | nil =>
    obtain rfl := Except.ok.inj h
    exact ⟨hc, by simp⟩
  | cons a as ih =>
    unfold PgmNet.addEdges at h
    split at h
    · cases h
    · rename_i net1 h1
      obtain ⟨c1, m1, e1⟩ := addEdge_acyclic h1 hc hm
      obtain ⟨c2, e2⟩ := ih h c1 m1
      refine ⟨c2, fun x => ?_⟩
      rw [e2, e1]
      simp [or_assoc]

theorem addEdges_error {found : List (L × L)} {net : PgmNet P L} {err : PyErr}
    (h : net.addEdges found = .error err) : err = .valueError := by
  induction found generalizing net with
  | nil => cases h
  | cons a as ih =>
    unfold PgmNet.addEdges at h
    split at h
    · rename_i e' h1
      obtain rfl := Except.error.inj h
      unfold PgmNet.addEdge at h1
      split at h1
      · exact (Except.error.inj h1).symm
      split at h1
      · exact (Except.error.inj h1).symm
      · cases h1
    · exact ih h

/-- **C71** (`BN`) `learn` raises `ValueError` whenever the arcs returned by the search contain a directed
cycle; so whatever the search returns, a structure that is learned is acyclic and has exactly the arcs
found. -/
theorem C71_BN_cycle {b : DBN P L} {g : Gen (List V)} {score : String} {ω : Ω} {found : List (L × L)}
    (hc : g.cols = b.vars.length)
    (hf : lib.search { cols := b.vars, rows := g.rows } score ω = .ok found) :
    (HasCycle found → b.learn lib g score ω = .error .valueError) ∧
    ∀ b', b.learn lib g score ω = .ok b' → ¬ HasCycle b'.printStructure ∧
      ∀ a, a ∈ b'.printStructure ↔ a ∈ found := by
  have h0 : ¬ HasCycle ([] : List (L × L)) := by
    rintro ⟨v, hv⟩
    obtain ⟨c, h1, _⟩ := Relation.TransGen.head'_iff.1 hv
    simp at h1
  have hto : toFrame b.vars g = .ok { cols := b.vars, rows := g.rows } := by
    unfold toFrame
    rw [if_pos hc]
  unfold DBN.learn
  rw [hto]
  simp only [hf]
  cases hx : PgmNet.addEdges ({ nodes := b.vars.foldl insertNode [], arcs := [], params := none } :
      PgmNet P L) found with
  | error err =>
    rw [addEdges_error hx]
    exact ⟨fun _ => rfl, fun b' h => by cases h⟩
  | ok net =>
    obtain ⟨h1, h2⟩ := addEdges_acyclic hx h0 (by simp)
    simp only [List.not_mem_nil, false_or] at h2
    refine ⟨fun hcy => ?_, fun b' hb => ?_⟩
    · obtain ⟨v, hv⟩ := hcy
      exact absurd ⟨v, Relation.TransGen.mono (fun a b h => (h2 (a, b)).2 h) _ _ hv⟩ h1
    · simp only at hb
      split at hb
      · cases hb
      · obtain rfl := Except.ok.inj hb
        exact ⟨h1, h2⟩

end

/-! ### C78 -/

open Bench in
/-- **C78** in dimension 1 a point with any number of coordinates is accepted: the shift is subtracted from
each of them. -/
theorem C78_one_dimension_any_point {fs : Files} (hs : Shipped fs) {n : ℕ} (x : Fin n → ℝ) :
    cec fs 1 (List.ofFn x) 8 =
      .ok (Spec.rastrigin ((5.12 / 100 : ℝ) • (fun i => x i - shiftOf fs 1 8 0)) + 800) := by
  have hl := loadShift_length hs (d := 1) (dim := 1) (by decide) (k := 8) (by norm_num) (by norm_num)
  obtain ⟨v, hv⟩ := List.length_eq_one_iff.1 hl
  have hv0 : shiftOf fs 1 8 0 = v := by
    have h100 : 0 < (fs.shift 8).length := by
      unfold loadShift at hl
      rw [List.length_take] at hl; omega
    have h0 : (loadShift fs 1 8)[0]? = some ((fs.shift 8).getD 0 0) := by
      unfold loadShift
      rw [List.getElem?_take_of_lt (by norm_num), List.getElem?_eq_getElem h100,
        List.getD_eq_getElem?_getD, List.getElem?_eq_getElem h100]
      rfl
    rw [hv] at h0
    simp only [List.getElem?_cons_zero, Option.some.injEq] at h0
    unfold shiftOf
    simpa using h0.symm
  have hsub : npSub (List.ofFn x) [v] = .ok (List.ofFn (fun i => x i - v)) := by
    unfold npSub
    by_cases hn : n = 1
    · subst hn
      simp [List.ofFn_succ]
    · rw [if_neg (by simpa using hn)]
      split
      · rename_i heq
        have := congrArg List.length heq
        simp at this; omega
      · rename_i heq _
        obtain rfl := (List.cons.inj heq).1
        simp [List.map_ofFn, Function.comp_def]
      · rename_i h1 h2
        exact (h2 v rfl).elim
  show cec8 _ _ _ = _
  unfold cec8 shifted
  rw [hv, hsub, hv0]
  have hmap : List.map (fun z : ℝ => 5.12 / 100 * z) (List.ofFn (fun i => x i - v)) =
      List.ofFn ((5.12 / 100 : ℝ) • (fun i => x i - v)) := by
    simp [List.map_ofFn, Function.comp_def, Pi.smul_def]
  simp only [Except.map]
  rw [hmap, evalAt, rastrigin_val]
  rfl

/-! ### Examples -/

/-- A library whose search returns two opposite arcs. -/
def Ex.cyclic : PgmLib Unit ℕ ℕ Unit where
  search _ _ _ := .ok [(0, 1), (1, 0)]
  fit _ _ _ := .ok ()
  simulate _ _ _ := .error .notModelled

example : (DBN.new [0, 1] : DBN Unit ℕ).learn Ex.cyclic { dt := .int, cols := 2, rows := [[3, 4]] } "bicscore" ()
    = .error .valueError :=
  (C71_BN_cycle rfl rfl).1 ⟨0, .tail (.single (b := 1) (by simp)) (by simp)⟩

example (ρ : Rand (Draws ℚ)) (hω : Unit01 ρ.init) : ∃ e b, EMNA id id id Ex.emna = .ok (e, b) ∧
    ∃ s, start Ex.env e Ex.cost b ρ = .ok s ∧
      InBox 2 (.array [0, -1]) (.scalar (1 : ℚ)) s.gen.rows := by
  obtain ⟨e, b, h, res, s, hr⟩ := C53_EMNA_never_raises (fl := id) (sq := id) (fac := id) (ρ := ρ)
    (ftol := (0 : ℚ)) (f := Ex.cost) Ex.env_valid Ex.emna_valid (by decide) (by decide)
    (by decide +kernel) (fun _ _ => field_isNum _)
  obtain ⟨s0, h0⟩ : ∃ s0, start Ex.env e Ex.cost b ρ = .ok s0 := by
    unfold minimize at hr
    split at hr
    · cases hr
    · exact ⟨_, by assumption⟩
  exact ⟨e, b, h, s0, h0, C30_EMNA h rfl hω h0⟩

end Verif
