/-
C83: the order of the individuals in `init_data`.
-/
import Verif.Lemmas.Order
import Verif.Lemmas.UniBin
import Verif.Model.Examples
import Verif.Spec.Core

namespace Verif

open PyCost

variable {K R C σ Ω : Type} [Field K] [LinearOrder K] [FloorRing K] [PyCost C]
variable {fl : K → K} {cfg : BaseCfg K R}
  {noise : Ω → Except PyErr (Gen R → Except PyErr (Gen R))} {init : Ω → Except PyErr (Gen R)}
  {learn : σ → Gen R → Gen R → Ω → Except PyErr σ} {sample : σ → Ω → Except PyErr (Gen R)}
  {e e' : Eda R σ Ω} {env : Env C} {ftol : C} {pm : σ} {ρ : Rand Ω} {d d' : Gen R} {g : R → C}

namespace Spec

/-- The same individuals in another order. -/
structure Reordered (d d' : Gen R) : Prop where
  dt : d'.dt = d.dt
  cols : d'.cols = d.cols
  rows : d'.rows.Perm d.rows

/-- The costs are numbers and individuals with equal costs are equal. -/
structure NoTies (g : R → C) (rows : List R) : Prop where
  num : ∀ r ∈ rows, IsNum (g r)
  inj : ∀ r ∈ rows, ∀ r' ∈ rows, eq (g r) (g r') = true → r = r'

/-- Two runs agree: they raise the same exception, or both return, with the same best cost, history,
number of evaluations, learned model, and (if one was found after the first generation) the same best
individual. -/
inductive SameReport : Except PyErr (EdaResult R C × St R C σ) → Except PyErr (EdaResult R C × St R C σ) → Prop
  | raised (err) : SameReport (.error err) (.error err)
  | returned {a b} : b.1.bestCost = a.1.bestCost → b.1.history = a.1.history → b.1.nFev = a.1.nFev →
      (∀ r, b.1.bestInd = .row r ↔ a.1.bestInd = .row r) → b.2.pm = a.2.pm → SameReport (.ok a) (.ok b)

end Spec

omit [PyCost C] in
theorem mkEdaG_sameButInit (h : mkEdaG fl { cfg with initData := some d } noise init learn sample = .ok e)
    (h' : mkEdaG fl { cfg with initData := some d' } noise init learn sample = .ok e') :
    SameButInit e e' := by
  have a := mkEdaG_ok h
  have b := mkEdaG_ok h'
  exact ⟨b.sizeGen.trans a.sizeGen.symm, b.maxIter.trans a.maxIter.symm,
    b.deadIter.trans a.deadIter.symm, b.truncLen.trans a.truncLen.symm,
    b.eliteLen.trans a.eliteLen.symm, b.parallel.trans a.parallel.symm,
    b.mkNoise.trans a.mkNoise.symm, b.updatePm.trans a.updatePm.symm, b.sample.trans a.sample.symm⟩

omit [PyCost C] in
theorem agree_of_same {x y : Except PyErr (EdaResult R C × St R C σ)} (h : SameOutcome x y) :
    Spec.SameReport x y := by
  cases h with
  | error err => exact .raised err
  | ok h => exact .returned h.1 h.2.1 h.2.2.1 h.2.2.2.1 h.2.2.2.2

/-- **C83** (partial: orders with the same first individual) for every algorithm (they all use this
constructor), every cost function without ties on `init_data`, and all draws: the runs agree. -/
theorem C83_same_first_partial [LawfulCost C] [UniformCost C] (hv : env.Valid)
    (h : mkEdaG fl { cfg with initData := some d } noise init learn sample = .ok e)
    (h' : mkEdaG fl { cfg with initData := some d' } noise init learn sample = .ok e')
    (hd : Spec.Reordered d d') (hfirst : d'.rows.head? = d.rows.head?) (ht : Spec.NoTies g d.rows) :
    Spec.SameReport (minimize env e (fun _ r => g r) ftol pm ρ)
      (minimize env e' (fun _ r => g r) ftol pm ρ) := by
  refine agree_of_same (minimize_reordered hv (mkEdaG_sameButInit h h') (d := d) (d' := d')
    (by rw [((mkEdaG_ok h).initSome d rfl).2]) (by rw [((mkEdaG_ok h').initSome d' rfl).2]) hd.dt hd.cols
    hd.rows ht.num ht.inj ?_)
  intro r0 r0' h0 h0'
  rw [hfirst, h0] at h0'
  obtain rfl := Option.some.inj h0'
  obtain ⟨P, p1, p2, _⟩ := argsort_pool hv.argsort (d.rows ++ [r0]) ((d.rows ++ [r0]).map g) (by simp)
  have hz : (d.rows ++ [r0]).zip ((d.rows ++ [r0]).map g) = (d.rows ++ [r0]).map (fun r => (r, g r)) := by
    rw [List.zip_map_right]
    induction (d.rows ++ [r0]) with
    | nil => rfl
    | cons x xs ih => simpa using ih
  rw [hz] at p1
  have p2' : CostSorted P := p2.imp (fun h => h.1)
  exact ⟨P, P, p1, p1, p2', p2', rfl, rfl⟩

/-- Insert `x` in a sorted list: the entries that are better than `x` come first. -/
theorem sorted_insert [LawfulCost C] {α : Type} {S : List (α × C)} (hs : CostSorted S) {x : α × C}
    (hn : ∀ y ∈ S, IsNum y.2) :
    ∃ S1 S2, S = S1 ++ S2 ∧ S1.length = (S.filter (fun y => lt y.2 x.2)).length ∧
      CostSorted (S1 ++ x :: S2) := by
  induction S with
  | nil => exact ⟨[], [], rfl, rfl, by simp [CostSorted]⟩
  | cons a S ih =>
    obtain ⟨h1, h2⟩ := List.pairwise_cons.1 hs
    by_cases hax : lt a.2 x.2 = true
    · obtain ⟨S1, S2, rfl, hl, hsrt⟩ := ih h2 (fun y hy => hn y (List.mem_cons_of_mem _ hy))
      refine ⟨a :: S1, S2, rfl, ?_, ?_⟩
      · rw [List.filter_cons_of_pos (by simpa using hax), List.length_cons, List.length_cons, hl]
      · rw [List.cons_append]
        refine List.pairwise_cons.2 ⟨fun b hb => ?_, hsrt⟩
        rcases List.mem_append.1 hb with hb | hb
        · exact h1 b (List.mem_append_left _ hb)
        · rcases List.mem_cons.1 hb with rfl | hb
          · exact LawfulCost.asymm _ _ hax
          · exact h1 b (List.mem_append_right _ hb)
    · have hax : lt a.2 x.2 = false := by simpa using hax
      have hall : ∀ b ∈ S, lt b.2 x.2 = false := by
        intro b hb
        by_contra hc
        rcases LawfulCost.cotrans b.2 a.2 x.2 (hn a (by simp)) (by simpa using hc) with h' | h'
        · rw [h1 b hb] at h'; cases h'
        · rw [hax] at h'; cases h'
      refine ⟨[], a :: S, rfl, ?_, ?_⟩
      · have : (a :: S).filter (fun y => lt y.2 x.2) = [] := by
          refine List.filter_eq_nil_iff.2 (fun b hb => ?_)
          rcases List.mem_cons.1 hb with rfl | hb
          · simp [hax]
          · simp [hall b hb]
        rw [this]
      · rw [List.nil_append]
        refine List.pairwise_cons.2 ⟨fun b hb => ?_, hs⟩
        rcases List.mem_cons.1 hb with rfl | hb
        · exact hax
        · exact hall b hb

/-- **C83** (partial: the first individual of neither order is selected) if at least as many individuals
as are selected (and kept as elite) are better than the first individual of either order, the runs
agree as well. -/
theorem C83_first_not_selected_partial [LawfulCost C] [UniformCost C] (hv : env.Valid)
    (h : mkEdaG fl { cfg with initData := some d } noise init learn sample = .ok e)
    (h' : mkEdaG fl { cfg with initData := some d' } noise init learn sample = .ok e')
    (hd : Spec.Reordered d d') (ht : Spec.NoTies g d.rows)
    (hq0 : 0 ≤ selLen fl cfg.sizeGen cfg.alpha) (hel0 : 0 ≤ selLen fl cfg.sizeGen cfg.eliteFactor)
    (hbetter : ∀ r0, d.rows.head? = some r0 ∨ d'.rows.head? = some r0 →
      max (selLen fl cfg.sizeGen cfg.alpha) (selLen fl cfg.sizeGen cfg.eliteFactor) ≤
        (d.rows.filter (fun r => lt (g r) (g r0))).length) :
    Spec.SameReport (minimize env e (fun _ r => g r) ftol pm ρ)
      (minimize env e' (fun _ r => g r) ftol pm ρ) := by
  refine agree_of_same (minimize_reordered hv (mkEdaG_sameButInit h h') (d := d) (d' := d')
    (by rw [((mkEdaG_ok h).initSome d rfl).2]) (by rw [((mkEdaG_ok h').initSome d' rfl).2]) hd.dt hd.cols
    hd.rows ht.num ht.inj ?_)
  intro r0 r0' h0 h0'
  obtain ⟨S, s1, s2, _⟩ := argsort_pool hv.argsort d.rows (d.rows.map g) (by simp)
  have hz : d.rows.zip (d.rows.map g) = d.rows.map (fun r => (r, g r)) := by
    rw [List.zip_map_right]
    induction d.rows with
    | nil => rfl
    | cons x xs ih => simpa using ih
  rw [hz] at s1
  have s2' : CostSorted S := s2.imp (fun h => h.1)
  have hnum : ∀ y ∈ S, IsNum y.2 := by
    intro y hy
    obtain ⟨r, hr, rfl⟩ := List.mem_map.1 (s1.mem_iff.1 hy)
    exact ht.num r hr
  have hcount : ∀ r, (S.filter (fun y => lt y.2 (g r))).length =
      (d.rows.filter (fun a => lt (g a) (g r))).length := by
    intro r
    rw [(s1.filter _).length_eq, List.filter_map, List.length_map]
    rfl
  obtain ⟨A, B, hA, hA', hA''⟩ := sorted_insert (x := (r0, g r0)) s2' hnum
  obtain ⟨A2, B2, hB, hB', hB''⟩ := sorted_insert (x := (r0', g r0')) s2' hnum
  have l1 := hbetter r0 (.inl h0)
  have l2 := hbetter r0' (.inr h0')
  rw [← hcount, ← hA'] at l1
  rw [← hcount, ← hB'] at l2
  have perm : ∀ {A B : List (R × C)} {r : R}, S = A ++ B →
      (A ++ (r, g r) :: B).Perm ((d.rows ++ [r]).map (fun r => (r, g r))) := by
    intro A B r hS
    rw [List.map_append]
    refine List.perm_middle.trans ?_
    rw [← hS]
    exact (List.Perm.cons _ s1).trans (List.perm_append_singleton _ _).symm
  have take : ∀ {A B : List (R × C)} {x : R × C} {k : ℕ}, S = A ++ B → k ≤ A.length →
      (A ++ x :: B).take k = S.take k := by
    intro A B x k hS hk
    rw [hS, List.take_append_of_le_length hk, List.take_append_of_le_length hk]
  have e1 := (mkEdaG_ok h).truncLen
  have e2 := (mkEdaG_ok h).eliteLen
  dsimp only at e1 e2
  have len : ∀ (n : ℕ) (k : ℤ), 0 ≤ k → sliceLen n k ≤ k.toNat := by
    intro n k hk
    unfold sliceLen
    rw [if_pos hk]
    omega
  refine ⟨_, _, perm hA, perm hB, hA'', hB'', ?_, ?_⟩
  · have := len (A ++ (r0, g r0) :: B).length e.truncLen (by omega)
    rw [take hA (by omega), take hB (by omega)]
  · have := len (A ++ (r0, g r0) :: B).length e.eliteLen (by omega)
    rw [take hA (by omega), take hB (by omega)]

/-- **C83** why the order matters: the first selection of a run is made from the first generation and
one more copy of its first individual. -/
theorem C83_first_counts_twice [LawfulCost C] [UniformCost C] (hv : env.Valid) {s s1 : St R C σ}
    (h : Visited env e (fun _ r => g r) ftol pm ρ 1 s) (ht : truncation env e s = .ok s1) :
    ∃ r0, s.gen.rows.head? = some r0 ∧
      Spec.IsBestPrefix ((s.gen.rows ++ [r0]).map (fun r => (r, g r))) (s1.gen.rows.zip s1.evals) := by
  have ha := visited_aligned hv h
  cases h with
  | next hv' _ _ => cases hv'
  | first h0 =>
  obtain ⟨ev, r0, c0, best, i, hs⟩ := start_ok h0
  have hst := check_stored hv hs.check
  rw [callRows_pure] at hst
  have hhead : s.gen.rows.head? = some r0 := by rw [List.head?_eq_getElem?]; exact hs.row0
  refine ⟨r0, hhead, ?_⟩
  have hc0 : c0 = g r0 := by
    have := hs.cost0
    rw [hst, List.getElem?_map, hs.row0] at this
    exact (Option.some.inj this).symm
  obtain ⟨P, p1, p2, p3, p4, _, _⟩ := truncation_ok hv ha ht
  have hpool : poolOf s = (s.gen.rows ++ [r0]).map (fun r => (r, g r)) := by
    unfold poolOf
    rw [hs.evals, hs.elite, hs.evalsElite, hst, hc0]
    have : s.gen.rows.map g ++ [g r0] = (s.gen.rows ++ [r0]).map g := by simp
    simp only
    rw [this, List.zip_map_right]
    induction (s.gen.rows ++ [r0]) with
    | nil => rfl
    | cons x xs ih => simpa using ih
  rw [hpool] at p1
  refine ⟨P.drop (sliceLen P.length e.truncLen), ?_⟩
  have hz : s1.gen.rows.zip s1.evals = P.take (sliceLen P.length e.truncLen) := by
    rw [p3, p4]
    generalize P.take _ = Q
    induction Q with
    | nil => rfl
    | cons x xs ih => simpa using ih
  rw [hz, List.take_append_drop]
  exact ⟨p1, p2⟩

namespace Ex

/-- The four individuals of two bits, best first and worst first. -/
def ordData (rows : List (List ℚ)) : UMDAdCfg ℚ :=
  { Ex.cfg with base := { Ex.cfg.base with initData := some { dt := .int, cols := 2, rows := rows } } }
def ordUp : List (List ℚ) := [[0, 0], [0, 1], [1, 0], [1, 1]]
def ordDown : List (List ℚ) := [[1, 1], [1, 0], [0, 1], [0, 0]]
/-- The number written with the two bits. -/
def ordCost (r : List ℚ) : ℚ := 2 * r.getD 0 0 + r.getD 1 0
/-- All sampling draws are 3/10. -/
def ordRand : Rand (Draws ℚ) := { Ex.rand with sample := fun _ _ _ => 3/10 }
def ordRun (rows : List (List ℚ)) : Out :=
  match UMDAd id (ordData rows) with
  | .error err => .error err
  | .ok (e, b) => minimize Ex.env e (fun _ r => ordCost r) 0 b ordRand

theorem ord_noTies : Spec.NoTies ordCost ordUp where
  num := fun _ _ => field_isNum _
  inj := by decide +kernel

end Ex

/-- **C83** is false: `UMDAd` started from the same four individuals, best first or worst first, with a
cost function without ties and the same draws, reports different histories. -/
theorem C83_refuted : Ex.ordDown.Perm Ex.ordUp ∧ Spec.NoTies Ex.ordCost Ex.ordUp ∧
    ∃ eu ed b, UMDAd id (Ex.ordData Ex.ordUp) = .ok (eu, b) ∧
      UMDAd id (Ex.ordData Ex.ordDown) = .ok (ed, b) ∧ ∃ ru su rd sd,
      minimize Ex.env eu (fun _ r => Ex.ordCost r) 0 b Ex.ordRand = .ok (ru, su) ∧
      minimize Ex.env ed (fun _ r => Ex.ordCost r) 0 b Ex.ordRand = .ok (rd, sd) ∧
      ru.history = [0, 0, 0] ∧ rd.history = [0, 1, 1] := by
  refine ⟨by decide +kernel, Ex.ord_noTies, ?_⟩
  have hu : (Ex.ordRun Ex.ordUp).toOption.map (fun x => x.1.history) = some [0, 0, 0] := by decide +kernel
  have hd : (Ex.ordRun Ex.ordDown).toOption.map (fun x => x.1.history) = some [0, 1, 1] := by
    decide +kernel
  have iu : (UMDAd id (Ex.ordData Ex.ordUp)).toOption.map (fun x => (x.2.n, x.2.p, x.2.lb, x.2.ub)) =
    (UMDAd id (Ex.ordData Ex.ordDown)).toOption.map (fun x => (x.2.n, x.2.p, x.2.lb, x.2.ub)) := by
    decide +kernel
  unfold Ex.ordRun at hu hd
  cases h1 : UMDAd id (Ex.ordData Ex.ordUp) with
  | error err => rw [h1] at hu; simp [Except.toOption] at hu
  | ok x =>
  cases h2 : UMDAd id (Ex.ordData Ex.ordDown) with
  | error err => rw [h2] at hd; simp [Except.toOption] at hd
  | ok y =>
  obtain ⟨eu, b⟩ := x
  obtain ⟨ed, b'⟩ := y
  rw [h1] at hu
  rw [h2] at hd
  rw [h1, h2] at iu
  obtain ⟨⟨ru, su⟩, h3, h4⟩ := Ex.facts_of hu
  obtain ⟨⟨rd, sd⟩, h5, h6⟩ := Ex.facts_of hd
  have hb : b = b' := by
    cases b; cases b'
    simp only [Except.toOption, Option.map_some, Option.some.injEq, Prod.mk.injEq] at iu
    simp [iu]
  subst hb
  exact ⟨eu, ed, b, rfl, rfl, ru, su, rd, sd, h3, h5, h4, h6⟩

/-- C83: the hypotheses are met by `UMDAd` started from the four individuals with the best one first, in
two orders; and with an individual first that is not selected, in two orders. -/
example {eu eu' : Eda (List ℚ) (UniBin ℚ) (Draws ℚ)} {b b' : UniBin ℚ}
    (h : UMDAd id (Ex.ordData Ex.ordUp) = .ok (eu, b))
    (h' : UMDAd id (Ex.ordData [[0, 0], [1, 1], [1, 0], [0, 1]]) = .ok (eu', b')) :
    Spec.SameReport (minimize Ex.env eu (fun _ r => Ex.ordCost r) 0 b Ex.ordRand)
      (minimize Ex.env eu' (fun _ r => Ex.ordCost r) 0 b Ex.ordRand) := by
  unfold UMDAd mkEda at h h'
  split at h
  · cases h
  rename_i e1 h1
  split at h'
  · cases h'
  rename_i e2 h2
  split at h
  · cases h
  split at h'
  · cases h'
  obtain ⟨rfl, rfl⟩ := Prod.mk.inj (Except.ok.inj h)
  obtain ⟨rfl, _⟩ := Prod.mk.inj (Except.ok.inj h')
  exact C83_same_first_partial (cfg := { Ex.cfg.base with wNoise := some 0 }) Ex.env_valid h1 h2
    ⟨rfl, rfl, by decide +kernel⟩ rfl Ex.ord_noTies

example {eu eu' : Eda (List ℚ) (UniBin ℚ) (Draws ℚ)} {b b' : UniBin ℚ}
    (h : UMDAd id (Ex.ordData Ex.ordDown) = .ok (eu, b))
    (h' : UMDAd id (Ex.ordData [[1, 0], [0, 0], [1, 1], [0, 1]]) = .ok (eu', b')) :
    Spec.SameReport (minimize Ex.env eu (fun _ r => Ex.ordCost r) 0 b Ex.ordRand)
      (minimize Ex.env eu' (fun _ r => Ex.ordCost r) 0 b Ex.ordRand) := by
  unfold UMDAd mkEda at h h'
  split at h
  · cases h
  rename_i e1 h1
  split at h'
  · cases h'
  rename_i e2 h2
  split at h
  · cases h
  split at h'
  · cases h'
  obtain ⟨rfl, rfl⟩ := Prod.mk.inj (Except.ok.inj h)
  obtain ⟨rfl, _⟩ := Prod.mk.inj (Except.ok.inj h')
  refine C83_first_not_selected_partial (cfg := { Ex.cfg.base with wNoise := some 0 }) Ex.env_valid h1 h2
    ⟨rfl, rfl, by decide +kernel⟩ ⟨fun _ _ => field_isNum _, by decide +kernel⟩ (by decide +kernel)
    (by decide +kernel) ?_
  intro r0 hr
  have : r0 = [1, 1] ∨ r0 = [1, 0] := by
    rcases hr with hr | hr
    · exact .inl (Option.some.inj hr).symm
    · exact .inr (Option.some.inj hr).symm
  rcases this with rfl | rfl <;> decide +kernel

/-- C83: a run of `UMDAd` from the worst individual first reaches its first selection: the worst
individual is there twice (and everything is selected). -/
example : ∃ eu b s s1, UMDAd id (Ex.ordData Ex.ordDown) = .ok (eu, b) ∧
    Visited Ex.env { eu with truncLen := 5 } (fun _ r => Ex.ordCost r) 0 b Ex.ordRand 1 s ∧
    truncation Ex.env { eu with truncLen := 5 } s = .ok s1 ∧
    s1.gen.rows = [[0, 0], [0, 1], [1, 0], [1, 1], [1, 1]] := by
  cases h : UMDAd id (Ex.ordData Ex.ordDown) with
  | error err =>
    have : (UMDAd id (Ex.ordData Ex.ordDown)).toOption.isSome = true := by decide +kernel
    rw [h] at this
    cases this
  | ok x =>
  obtain ⟨s1, h1, h2⟩ := Ex.facts_of (x := (UMDAd id (Ex.ordData Ex.ordDown)).bind (fun x =>
    (start Ex.env { x.1 with truncLen := 5 } (fun _ r => Ex.ordCost r) x.2 Ex.ordRand).bind (fun s =>
      (truncation Ex.env { x.1 with truncLen := 5 } s).map (fun s1 => (s, s1)))))
    (g := fun s => s.2.gen.rows) (y := [[0, 0], [0, 1], [1, 0], [1, 1], [1, 1]]) (by decide +kernel)
  rw [h] at h1
  simp only [Except.bind] at h1
  split at h1
  · cases h1
  rename_i s hs
  cases ht : truncation Ex.env { x.1 with truncLen := 5 } s with
  | error err => rw [ht] at h1; cases h1
  | ok s2 =>
    rw [ht] at h1
    obtain rfl := Except.ok.inj h1
    exact ⟨x.1, x.2, s, s2, rfl, .first hs, ht, h2⟩

end Verif
