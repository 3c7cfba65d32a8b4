/-
General facts about runs: determinism, invariants of the individuals, progress.
-/
import Verif.Lemmas.Core

namespace Verif

open PyCost

variable {R C σ Ω : Type} [PyCost C]
variable {env : Env C} {e : Eda R σ Ω} {f : ℕ → R → C} {ftol : C} {pm : σ} {ρ : Rand Ω}

/-! ### Determinism -/

theorem visited_pos {t : ℕ} {s : St R C σ} (h : Visited env e f ftol pm ρ t s) : 1 ≤ t := by
  cases h <;> omega

theorem visited_unique {t : ℕ} {s : St R C σ} (h : Visited env e f ftol pm ρ t s) :
    ∀ {s'}, Visited env e f ftol pm ρ t s' → s = s' := by
  induction h with
  | first h0 =>
    intro s' h'
    cases h' with
    | first h1 => rw [h0] at h1; exact Except.ok.inj h1
    | next hv _ _ => exact absurd (visited_pos hv) (by omega)
  | next hv hn hs ih =>
    intro s' h'
    cases h' with
    | first h1 => exact absurd (visited_pos hv) (by omega)
    | next hv' hn' hs' =>
      have h1 := ih hv'
      subst h1
      rw [hn] at hn'
      obtain rfl := Except.ok.inj hn'
      rw [hs] at hs'
      have := Except.ok.inj hs'
      exact (Prod.mk.inj this).1

/-- The states of a run between pass `t` and pass `t'`: an invariant of the passes that holds after
the selection of pass `t` … holds later. -/
theorem visited_from {t : ℕ} {s : St R C σ} (h : Visited env e f ftol pm ρ t s)
    (Inv : St R C σ → Prop) (hs : Inv s)
    (hstep : ∀ noise t s s', Inv s → Visited env e f ftol pm ρ t s → e.mkNoise ρ.noise = .ok noise →
      step env e f ftol ρ noise t s = .ok (s', false) → Inv s') :
    ∀ {t' s'}, Visited env e f ftol pm ρ t' s' → t ≤ t' → Inv s' := by
  intro t' s' h'
  induction h' with
  | first h0 =>
    intro ht
    have : t = 1 := by have := visited_pos h; omega
    subst this
    rw [← visited_unique h (.first h0)]; exact hs
  | @next t2 s2 s3 noise hv hn hst ih =>
    intro ht
    rcases Nat.lt_or_ge t2 t with hlt | hge
    · have : t = t2 + 1 := by omega
      subst this
      rw [← visited_unique h (.next hv hn hst)]; exact hs
    · exact hstep _ _ _ _ (ih hge) hv hn hst

/-- The head states cover the run: a run that returns either has max_iter ≤ 1 or ends with a pass
from a head state. -/
theorem minimize_last {res : EdaResult R C} {s : St R C σ}
    (h : minimize env e f ftol pm ρ = .ok (res, s)) :
    start env e f pm ρ = .ok s ∨
    ∃ t s1 noise b, Visited env e f ftol pm ρ t s1 ∧ e.mkNoise ρ.noise = .ok noise ∧
      step env e f ftol ρ noise t s1 = .ok (s, b) := by
  obtain ⟨s0, noise, h0, hn, hl, _⟩ := minimize_ok h
  have key : ∀ n t s0, Visited env e f ftol pm ρ t s0 →
      loop env e f ftol ρ noise n t s0 = .ok s →
      s0 = s ∨ ∃ t s1 noise b, Visited env e f ftol pm ρ t s1 ∧ e.mkNoise ρ.noise = .ok noise ∧
        step env e f ftol ρ noise t s1 = .ok (s, b) := by
    intro n
    induction n with
    | zero => intro t s0 _ hl; simp [loop] at hl; exact .inl hl
    | succ n ih =>
      intro t s0 hv hl
      unfold loop at hl
      split at hl
      · simp at hl
      · rename_i s2 hs
        simp only [Except.ok.injEq] at hl
        subst hl
        exact .inr ⟨t, s0, noise, true, hv, hn, hs⟩
      · rename_i s2 hs
        rcases ih _ _ (.next hv hn hs) hl with h | h
        · subst h; exact .inr ⟨t, s0, noise, false, hv, hn, hs⟩
        · exact .inr h
  rcases key _ _ _ (.first h0) hl with h | h
  · exact .inl (h ▸ h0)
  · exact .inr h

/-! ### Selection picks rows of the pool -/

theorem truncation_rows (hv : env.Valid) {s s1 : St R C σ} (ha : Aligned s)
    (h : truncation env e s = .ok s1) :
    (∀ r ∈ s1.gen.rows, r ∈ s.gen.rows ∨ r ∈ s.elite.rows) ∧
    (∀ r ∈ s1.elite.rows, r ∈ s.gen.rows ∨ r ∈ s.elite.rows) := by
  obtain ⟨P, h1, _, h3, _, h5, _⟩ := truncation_ok hv ha h
  have key : ∀ k r, r ∈ (P.take k).map Prod.fst → r ∈ s.gen.rows ∨ r ∈ s.elite.rows := by
    intro k r hr
    obtain ⟨⟨r', c⟩, hm, rfl⟩ := List.mem_map.1 hr
    have := h1.subset (List.take_subset _ _ hm)
    unfold poolOf at this
    have := (List.of_mem_zip this).1
    simpa using this
  exact ⟨fun r hr => key _ r (h3 ▸ hr), fun r hr => key _ r (h5 ▸ hr)⟩

theorem truncation_shape {s s1 : St R C σ} (h : truncation env e s = .ok s1) :
    s.gen.cols = s.elite.cols ∧ s1.gen.cols = s.gen.cols ∧ s1.elite.cols = s.gen.cols ∧
    s1.gen.dt = s.gen.dt.promote s.elite.dt ∧ s1.elite.dt = s.gen.dt.promote s.elite.dt := by
  unfold truncation Gen.concat at h
  split at h
  · simp at h
  · rename_i gen hg
    split at hg
    · rename_i hc
      simp only [Except.ok.injEq] at hg h
      subst hg; subst h
      exact ⟨hc, rfl, rfl, rfl, rfl⟩
    · simp at hg

/-- With `0 ≤ elite_length ≤ truncation_length`, the elite is a prefix of the selection. -/
theorem truncation_elite_subset (hv : env.Valid) {s s1 : St R C σ} (ha : Aligned s)
    (h : truncation env e s = .ok s1) (he : 0 ≤ e.eliteLen) (het : e.eliteLen ≤ e.truncLen) :
    ∀ r ∈ s1.elite.rows, r ∈ s1.gen.rows := by
  obtain ⟨P, h1, _, h3, _, h5, _⟩ := truncation_ok hv ha h
  intro r hr
  rw [h5] at hr
  rw [h3]
  obtain ⟨p, hp, rfl⟩ := List.mem_map.1 hr
  refine List.mem_map.2 ⟨p, ?_, rfl⟩
  have : sliceLen P.length e.eliteLen ≤ sliceLen P.length e.truncLen := by
    unfold sliceLen
    rw [if_pos he, if_pos (by omega)]
    omega
  exact (List.take_prefix_take_left this).subset hp

theorem truncation_length (hv : env.Valid) {s s1 : St R C σ} (ha : Aligned s)
    (h : truncation env e s = .ok s1) (ht : 0 ≤ e.truncLen) :
    s1.gen.rows.length = min e.truncLen.toNat (s.gen.rows.length + s.elite.rows.length) := by
  obtain ⟨P, h1, _, h3, _, _, _⟩ := truncation_ok hv ha h
  have hlen := h1.length_eq
  rw [poolOf_length ha] at hlen
  rw [h3, List.length_map, List.length_take]
  unfold sliceLen
  rw [if_pos ht]
  omega

/-! ### Invariants of the individuals -/

/-- `Q` holds for the rows of the initial generation and, given that the model was learned from
rows satisfying `Q`, for the rows that the model samples.  `I` is what is known of the model. -/
structure RowInv (e : Eda R σ Ω) (ρ : Rand Ω) (Q : R → Prop) (N : Gen R → Prop) (I P : σ → Prop) :
    Prop where
  init : ∀ g, e.initGen ρ.init = .ok g → ∀ r ∈ g.rows, Q r
  noise : ∀ nz g g', e.mkNoise ρ.noise = .ok nz → (∀ r ∈ g.rows, Q r) → nz g = .ok g' → N g'
  learn : ∀ pm g el t pm', I pm → N g → (∀ r ∈ el.rows, Q r) →
    e.updatePm pm g el (ρ.learn t) = .ok pm' → I pm' ∧ P pm'
  sample : ∀ pm t g, I pm → P pm → e.sample pm (ρ.sample t) = .ok g → ∀ r ∈ g.rows, Q r

/-- Every individual of the state satisfies `Q`: generation, elite, and all evaluated ones. -/
structure AllRows (Q : R → Prop) (I : σ → Prop) (s : St R C σ) : Prop where
  gen : ∀ r ∈ s.gen.rows, Q r
  elite : ∀ r ∈ s.elite.rows, Q r
  log : ∀ p ∈ s.log.flatten, Q p.1
  pm : I s.pm

theorem allRows_start (hv : env.Valid) {Q : R → Prop} {N : Gen R → Prop} {I P : σ → Prop}
    (hr : RowInv e ρ Q N I P) (hI : I pm) {s0 : St R C σ} (h : start env e f pm ρ = .ok s0) :
    AllRows Q I s0 := by
  obtain ⟨ev, r0, c0, best, i, hs⟩ := start_ok h
  have hg := hr.init _ hs.init
  refine ⟨hg, ?_, ?_, by rw [hs.pm]; exact hI⟩
  · rw [hs.elite]
    intro r h
    simp only [List.mem_singleton] at h
    subst h
    exact hg _ (List.mem_of_getElem? hs.row0)
  · rw [hs.log]
    intro p hp
    rw [(check_calls hv hs.check).2] at hp
    simp only [List.flatten_cons, List.flatten_nil, List.append_nil] at hp
    exact hg _ (List.of_mem_zip hp).1

theorem allRows_step (hv : env.Valid) {Q : R → Prop} {N : Gen R → Prop} {I P : σ → Prop}
    (hr : RowInv e ρ Q N I P) {noise : Gen R → Except PyErr (Gen R)}
    (hn : e.mkNoise ρ.noise = .ok noise) {t : ℕ} {s s' : St R C σ} {b : Bool} (ha : Aligned s)
    (hi : AllRows Q I s) (h : step env e f ftol ρ noise t s = .ok (s', b)) :
    AllRows Q I s' := by
  obtain ⟨s1, noisy, ev, best, i, ind, hs⟩ := step_ok h
  obtain ⟨hg1, he1⟩ := truncation_rows hv ha hs.trunc
  have hQg : ∀ r ∈ s1.gen.rows, Q r := fun r h => (hg1 r h).elim (hi.gen r) (hi.elite r)
  have hQe : ∀ r ∈ s1.elite.rows, Q r := fun r h => (he1 r h).elim (hi.gen r) (hi.elite r)
  have hN := hr.noise _ _ _ hn hQg hs.noise
  obtain ⟨hI, hP⟩ := hr.learn _ _ _ _ _ hi.pm hN hQe hs.update
  have hg := hr.sample _ _ _ hI hP hs.sample
  refine ⟨hg, by rw [hs.elite]; exact hQe, ?_, hI⟩
  rw [hs.log]
  intro p hp
  simp only [List.flatten_append, List.flatten_cons, List.flatten_nil, List.append_nil,
    List.mem_append] at hp
  rcases hp with hp | hp
  · exact hi.log p hp
  · rw [(check_calls hv hs.check).2] at hp
    exact hg _ (List.of_mem_zip hp).1

theorem allRows_visited (hv : env.Valid) {Q : R → Prop} {N : Gen R → Prop} {I P : σ → Prop}
    (hr : RowInv e ρ Q N I P) (hI : I pm) {t : ℕ} {s : St R C σ}
    (h : Visited env e f ftol pm ρ t s) : AllRows Q I s :=
  (visited_inv (fun s => Aligned s ∧ AllRows Q I s)
    (fun _ h => ⟨start_aligned hv h, allRows_start hv hr hI h⟩)
    (fun _ _ _ _ _ hi hn h => ⟨step_aligned hv hi.1 h, allRows_step hv hr hn hi.1 hi.2 h⟩) h).2

theorem allRows_minimize (hv : env.Valid) {Q : R → Prop} {N : Gen R → Prop} {I P : σ → Prop}
    (hr : RowInv e ρ Q N I P) (hI : I pm) {res : EdaResult R C} {s : St R C σ}
    (h : minimize env e f ftol pm ρ = .ok (res, s)) : AllRows Q I s :=
  (minimize_inv (fun s => Aligned s ∧ AllRows Q I s)
    (fun _ h => ⟨start_aligned hv h, allRows_start hv hr hI h⟩)
    (fun _ _ _ _ _ hi hn h => ⟨step_aligned hv hi.1 h, allRows_step hv hr hn hi.1 hi.2 h⟩) h).2

/-! ### Progress -/

theorem foldl_min_num [LawfulCost C] (l : List C) (c : C) (hc : IsNum c) (hl : ∀ x ∈ l, IsNum x) :
    IsNum (l.foldl (fun b x => if lt x b then x else b) c) := by
  induction l generalizing c with
  | nil => exact hc
  | cons a l ih =>
    simp only [List.foldl_cons]
    apply ih
    · split
      · exact hl a (by simp)
      · exact hc
    · exact fun x hx => hl x (by simp [hx])

theorem foldl_min_mem (l : List C) (c : C) :
    l.foldl (fun b x => if lt x b then x else b) c ∈ c :: l := by
  induction l generalizing c with
  | nil => simp
  | cons a l ih =>
    simp only [List.foldl_cons]
    have := ih (if lt a c then a else c)
    rcases List.mem_cons.1 this with h | h
    · rw [h]; split <;> simp
    · simp [h]

/-- For non-NaN costs the two lines `best = min(ev)`, `np.where(ev == best)[0][0]` succeed. -/
theorem min_where_ok [LawfulCost C] (l : List C) (hne : l ≠ []) (hl : ∀ x ∈ l, IsNum x) :
    ∃ best i, pyMin l = some best ∧ whereFirst l best = some i ∧ i < l.length := by
  obtain ⟨c, cs, rfl⟩ := List.exists_cons_of_ne_nil hne
  have hmem := foldl_min_mem cs c
  have hnum := hl _ hmem
  refine ⟨_, List.findIdx (fun x => PyCost.eq x
    (cs.foldl (fun b x => if lt x b then x else b) c)) (c :: cs), rfl, ?_, ?_⟩
  · unfold whereFirst
    rw [List.findIdx?_eq_some_iff_findIdx_eq]
    exact ⟨List.findIdx_lt_length_of_exists ⟨_, hmem, hnum⟩, rfl⟩
  · exact List.findIdx_lt_length_of_exists ⟨_, hmem, hnum⟩

/-- Conditions under which a run of `e` never raises: `G` describes the generations (and is
closed under selection and concatenation), `N` the training sets, `P` the models, `m` is the least
number of rows of a generation. -/
structure NoRaise (cpu : ℕ) (e : Eda R σ Ω) (ρ : Rand Ω) (m : ℕ) (G N : Gen R → Prop)
    (P : σ → Prop) : Prop where
  pos : 1 ≤ m
  trunc : 1 ≤ e.truncLen
  cpu : e.parallel = true → cpu ≤ m
  init : ∃ g, e.initGen ρ.init = .ok g ∧ G g ∧ m ≤ g.rows.length
  sub : ∀ (g : Gen R) (rows : List R), G g → (∀ r ∈ rows, r ∈ g.rows) → G { g with rows := rows }
  app : ∀ a b : Gen R, G a → G b → a.cols = b.cols ∧
    G { dt := a.dt.promote b.dt, cols := a.cols, rows := a.rows ++ b.rows }
  noise : ∃ nz, e.mkNoise ρ.noise = .ok nz ∧ ∀ g, G g → g.rows ≠ [] →
    (∃ k, m ≤ k ∧ g.rows.length = min e.truncLen.toNat k) → ∃ g', nz g = .ok g' ∧ N g'
  learn : ∀ pm g el t, P pm → N g → G el →
    (∃ k, m ≤ k ∧ el.rows.length = sliceLen k e.eliteLen) →
    ∃ pm', e.updatePm pm g el (ρ.learn t) = .ok pm' ∧ P pm'
  sample : ∀ pm t, P pm →
    (∃ pm0 g el t', P pm0 ∧ N g ∧ G el ∧ e.updatePm pm0 g el (ρ.learn t') = .ok pm) →
    ∃ g, e.sample pm (ρ.sample t) = .ok g ∧ G g ∧ m ≤ g.rows.length

/-- The same with separate descriptions of the generations (`G`), the elites (`E`) and the selected
individuals (`T`). -/
structure NoRaiseG (cpu : ℕ) (e : Eda R σ Ω) (ρ : Rand Ω) (m : ℕ) (G E T N : Gen R → Prop)
    (P : σ → Prop) : Prop where
  pos : 1 ≤ m
  trunc : 1 ≤ e.truncLen
  cpu : e.parallel = true → cpu ≤ m
  init : ∃ g, e.initGen ρ.init = .ok g ∧ G g ∧ (∀ r ∈ g.rows, E { g with rows := [r] }) ∧
    m ≤ g.rows.length
  app : ∀ a b : Gen R, G a → E b → a.cols = b.cols ∧
    ∀ rows, (∀ r ∈ rows, r ∈ a.rows ∨ r ∈ b.rows) →
      T { dt := a.dt.promote b.dt, cols := a.cols, rows := rows } ∧
      E { dt := a.dt.promote b.dt, cols := a.cols, rows := rows }
  noise : ∃ nz, e.mkNoise ρ.noise = .ok nz ∧ ∀ g, T g → g.rows ≠ [] →
    (∃ k, m ≤ k ∧ g.rows.length = min e.truncLen.toNat k) → ∃ g', nz g = .ok g' ∧ N g'
  learn : ∀ pm g el t, P pm → N g → E el →
    (∃ k, m ≤ k ∧ el.rows.length = sliceLen k e.eliteLen) →
    ∃ pm', e.updatePm pm g el (ρ.learn t) = .ok pm' ∧ P pm'
  sample : ∀ pm t, P pm →
    (∃ pm0 g el t', P pm0 ∧ N g ∧ E el ∧ e.updatePm pm0 g el (ρ.learn t') = .ok pm) →
    ∃ g, e.sample pm (ρ.sample t) = .ok g ∧ G g ∧ m ≤ g.rows.length

theorem NoRaise.toG {cpu : ℕ} {m : ℕ} {G N : Gen R → Prop} {P : σ → Prop}
    (h : NoRaise cpu e ρ m G N P) : NoRaiseG cpu e ρ m G G G N P where
  pos := h.pos
  trunc := h.trunc
  cpu := h.cpu
  init := by
    obtain ⟨g, h1, h2, h3⟩ := h.init
    exact ⟨g, h1, h2, fun r hr => h.sub _ _ h2 (by simpa using hr), h3⟩
  app := by
    intro a b ha hb
    obtain ⟨h1, h2⟩ := h.app a b ha hb
    refine ⟨h1, fun rows hrows => ?_⟩
    have := h.sub _ rows h2 (by simpa using hrows)
    exact ⟨this, this⟩
  noise := h.noise
  learn := h.learn
  sample := h.sample

/-- States of a run that does not raise. -/
structure GoodSt (G E : Gen R → Prop) (P : σ → Prop) (m : ℕ) (s : St R C σ) : Prop where
  aligned : Aligned s
  gen : G s.gen
  size : m ≤ s.gen.rows.length
  elite : E s.elite
  pm : P s.pm

theorem check_progress [LawfulCost C] [UniformCost C] (hv : env.Valid) {par : Bool} {k m : ℕ}
    (hnum : ∀ k r, IsNum (f k r)) (hm : 1 ≤ m) (hcpu : par = true → env.cpu ≤ m) {g : Gen R}
    (hg : m ≤ g.rows.length) :
    ∃ ev best i ind, checkGeneration env par f k g.rows = .ok ev ∧ pyMin ev.stored = some best ∧
      whereFirst ev.stored best = some i ∧ g.rows[i]? = some ind := by
  have hne : g.rows ≠ [] := by intro h; rw [h] at hg; simp at hg; omega
  obtain ⟨ev, hev⟩ := check_isOk (f := f) (k := k) hv hne (fun h => (hcpu h).trans hg)
  have hst := check_stored hv hev
  have hall : ∀ x ∈ ev.stored, IsNum x := by
    intro x hx
    rw [hst] at hx
    unfold callRows at hx
    obtain ⟨i, hi, rfl⟩ := List.mem_mapIdx.1 hx
    exact hnum _ _
  have hlen := check_stored_length hv hev
  obtain ⟨best, i, h1, h2, h3⟩ := min_where_ok ev.stored
    (by intro h; rw [h] at hlen; exact hne (List.length_eq_zero_iff.1 hlen.symm)) hall
  exact ⟨ev, best, i, g.rows[i]'(by omega), hev, h1, h2, by simp⟩

/-- The first generation is evaluated without an error if there are enough rows. -/
theorem start_isOk [LawfulCost C] [UniformCost C] (hv : env.Valid) {m : ℕ}
    (hnum : ∀ k r, IsNum (f k r)) (hpos : 1 ≤ m) (hcpu : e.parallel = true → env.cpu ≤ m) {g : Gen R}
    (hg : e.initGen ρ.init = .ok g) (hm : m ≤ g.rows.length) :
    ∃ s0, start env e f pm ρ = .ok s0 := by
  obtain ⟨⟨calls, evals⟩, best, i, ind, h1, h2, h3, h4⟩ :=
    check_progress (f := f) (k := 0) hv hnum hpos hcpu hm
  have hlen := check_stored_length hv h1
  unfold start
  rw [hg]
  simp only [h1]
  simp only at h2 h3 hlen
  cases hrows : g.rows with
  | nil => rw [hrows] at hm; simp at hm; omega
  | cons r0 rs =>
    cases hevs : evals with
    | nil => rw [hevs, hrows] at hlen; simp at hlen
    | cons c0 cs =>
      rw [hevs] at h2 h3
      simp [h2, h3]

theorem start_progress [LawfulCost C] [UniformCost C] (hv : env.Valid) {m : ℕ}
    {G E T N : Gen R → Prop} {P : σ → Prop} (hr : NoRaiseG env.cpu e ρ m G E T N P)
    (hnum : ∀ k r, IsNum (f k r)) (hP : P pm) :
    ∃ s0, start env e f pm ρ = .ok s0 ∧ GoodSt G E P m s0 := by
  obtain ⟨g, hg, hG, hE, hm⟩ := hr.init
  obtain ⟨s0, h0⟩ := start_isOk (f := f) (pm := pm) hv hnum hr.pos hr.cpu hg hm
  refine ⟨s0, h0, ?_⟩
  obtain ⟨ev, r0, c0, best, i, hs⟩ := start_ok h0
  have hgen : g = s0.gen := by have := hs.init; rw [hg] at this; exact Except.ok.inj this
  subst hgen
  refine ⟨start_aligned hv h0, hG, hm, ?_, by rw [hs.pm]; exact hP⟩
  rw [hs.elite]
  exact hE _ (List.mem_of_getElem? hs.row0)

/-- In a good state, selection and noise succeed and give a training set and an elite. -/
theorem step_train (hv : env.Valid) {m : ℕ} [LawfulCost C]
    {G E T N : Gen R → Prop} {P : σ → Prop} (hr : NoRaiseG env.cpu e ρ m G E T N P)
    {noise : Gen R → Except PyErr (Gen R)}
    (hn : e.mkNoise ρ.noise = .ok noise) {s : St R C σ} (hs : GoodSt G E P m s) :
    ∃ s1 noisy, truncation env e s = .ok s1 ∧ noise s1.gen = .ok noisy ∧ N noisy ∧ E s1.elite ∧
      ∃ k, m ≤ k ∧ s1.elite.rows.length = sliceLen k e.eliteLen := by
  obtain ⟨hcols, hpool⟩ := hr.app _ _ hs.gen hs.elite
  obtain ⟨s1, ht⟩ : ∃ s1, truncation env e s = .ok s1 := by
    unfold truncation Gen.concat
    rw [if_pos hcols]
    exact ⟨_, rfl⟩
  obtain ⟨hg1, he1⟩ := truncation_rows hv hs.aligned ht
  obtain ⟨_, hc1, hc2, hd1, hd2⟩ := truncation_shape ht
  have hlen := truncation_length hv hs.aligned ht (by have := hr.trunc; omega)
  have hsub : ∀ g : Gen R, (∀ r ∈ g.rows, r ∈ s.gen.rows ∨ r ∈ s.elite.rows) →
      g.cols = s.gen.cols → g.dt = s.gen.dt.promote s.elite.dt → T g ∧ E g := by
    intro g h1 h2 h3
    have := hpool g.rows h1
    rw [← h2, ← h3] at this
    exact this
  have hG1 := (hsub _ hg1 hc1 hd1).1
  have hGe := (hsub _ he1 hc2 hd2).2
  obtain ⟨nz, hnz, hnoise⟩ := hr.noise
  rw [hn] at hnz
  obtain rfl := Except.ok.inj hnz
  have htr := hr.trunc
  have hm := hr.pos
  have hsize := hs.size
  obtain ⟨noisy, hny, hN⟩ := hnoise _ hG1
    (by intro h; rw [h] at hlen; simp only [List.length_nil] at hlen; omega)
    ⟨_, by omega, hlen⟩
  refine ⟨s1, noisy, ht, hny, hN, hGe, s.gen.rows.length + s.elite.rows.length, by omega, ?_⟩
  obtain ⟨Q, q1, _, _, _, q3, _⟩ := truncation_ok hv hs.aligned ht
  have hlenQ := q1.length_eq
  rw [poolOf_length hs.aligned] at hlenQ
  rw [q3, List.length_map, List.length_take, hlenQ]
  unfold sliceLen
  split <;> omega

theorem step_progress [LawfulCost C] [UniformCost C] (hv : env.Valid) {m : ℕ}
    {G E T N : Gen R → Prop} {P : σ → Prop} (hr : NoRaiseG env.cpu e ρ m G E T N P)
    (hnum : ∀ k r, IsNum (f k r)) {noise : Gen R → Except PyErr (Gen R)}
    (hn : e.mkNoise ρ.noise = .ok noise) {t : ℕ} {s : St R C σ} (hs : GoodSt G E P m s) :
    ∃ s' b, step env e f ftol ρ noise t s = .ok (s', b) ∧ GoodSt G E P m s' := by
  obtain ⟨s1, noisy, ht, hny, hN, hGe, hke⟩ := step_train hv hr hn hs
  obtain ⟨f1, f2, f3, f4, f5, f6⟩ := truncation_fields ht
  obtain ⟨pm', hu, hP⟩ := hr.learn s1.pm noisy s1.elite t (by rw [f3]; exact hs.pm) hN hGe hke
  obtain ⟨g, hg, hGg, hmg⟩ := hr.sample pm' t hP
    ⟨s1.pm, noisy, s1.elite, t, by rw [f3]; exact hs.pm, hN, hGe, hu⟩
  obtain ⟨⟨calls, evals⟩, best, i, ind, h1, h2, h3, h4⟩ :=
    check_progress (f := f) (k := s1.log.flatten.length) hv hnum hr.pos hr.cpu hmg
  obtain ⟨s', b, hst⟩ : ∃ s' b, step env e f ftol ρ noise t s = .ok (s', b) := by
    unfold step
    simp only at h2 h3
    simp only [ht, hny, hu, hg, h1, h2, h3, h4]
    split
    · exact ⟨_, _, rfl⟩
    · exact ⟨_, _, rfl⟩
  refine ⟨s', b, hst, ?_⟩
  obtain ⟨s1', noisy', ev', best', i', ind', hso⟩ := step_ok hst
  have e1 := hso.trunc; rw [ht] at e1; obtain rfl := Except.ok.inj e1
  have e2 := hso.noise; rw [hny] at e2; obtain rfl := Except.ok.inj e2
  have e3 := hso.update; rw [← f3, hu] at e3
  have e3 := Except.ok.inj e3
  have e4 := hso.sample; rw [← e3, hg] at e4
  have e4 := Except.ok.inj e4
  exact ⟨step_aligned hv hs.aligned hst, e4 ▸ hGg, e4 ▸ hmg, by rw [hso.elite]; exact hGe, e3 ▸ hP⟩

theorem minimize_progressG [LawfulCost C] [UniformCost C] (hv : env.Valid) {m : ℕ}
    {G E T N : Gen R → Prop} {P : σ → Prop} (hr : NoRaiseG env.cpu e ρ m G E T N P)
    (hnum : ∀ k r, IsNum (f k r)) (hP : P pm) :
    ∃ res s, minimize env e f ftol pm ρ = .ok (res, s) := by
  obtain ⟨s0, h0, hg0⟩ := start_progress (f := f) hv hr hnum hP
  obtain ⟨noise, hn, _⟩ := hr.noise
  have key : ∀ n t s, GoodSt G E P m s → ∃ s', loop env e f ftol ρ noise n t s = .ok s' := by
    intro n
    induction n with
    | zero => intro t s _; exact ⟨s, rfl⟩
    | succ n ih =>
      intro t s hs
      obtain ⟨s', b, hst, hs'⟩ := step_progress (ftol := ftol) (t := t) hv hr hnum hn hs
      unfold loop
      rw [hst]
      cases b with
      | true => exact ⟨s', rfl⟩
      | false => exact ih _ _ hs'
  obtain ⟨s, hl⟩ := key (e.maxIter - 1).toNat 1 s0 hg0
  unfold minimize
  rw [h0]
  simp only [hn, hl]
  exact ⟨_, _, rfl⟩

theorem minimize_progress [LawfulCost C] [UniformCost C] (hv : env.Valid) {m : ℕ}
    {G N : Gen R → Prop} {P : σ → Prop} (hr : NoRaise env.cpu e ρ m G N P)
    (hnum : ∀ k r, IsNum (f k r)) (hP : P pm) :
    ∃ res s, minimize env e f ftol pm ρ = .ok (res, s) :=
  minimize_progressG hv hr.toG hnum hP

/-- The model learned in the first pass does not depend on the sampling draws; with suitable draws
the second generation is whatever that model can produce. -/
theorem reach_second [LawfulCost C] [UniformCost C] (hv : env.Valid) {m : ℕ}
    {G N : Gen R → Prop} {P Q : σ → Prop}
    (hr : ∀ smp, NoRaise env.cpu e { ρ with sample := smp } m G N P)
    (hQ : ∀ pm g el t pm', P pm → N g → G el → e.updatePm pm g el (ρ.learn t) = .ok pm' → Q pm')
    (hnum : ∀ k r, IsNum (f k r)) (hP : P pm) :
    ∃ s0 nz pm', start env e f pm ρ = .ok s0 ∧ e.mkNoise ρ.noise = .ok nz ∧ P pm' ∧ Q pm' ∧
      ∀ ω g, e.sample pm' ω = .ok g → ∃ s' brk,
        step env e f ftol { ρ with sample := fun _ => ω } nz 1 s0 = .ok (s', brk) ∧
          s'.gen = g ∧ s'.pm = pm' := by
  obtain ⟨s0, h0, hg0⟩ := start_progress (f := f) hv (hr ρ.sample).toG hnum hP
  obtain ⟨nz, hn, hnz⟩ := (hr ρ.sample).noise
  obtain ⟨s', b, hst, hs'⟩ := step_progress (ftol := ftol) (t := 1) hv (hr ρ.sample).toG hnum hn hg0
  obtain ⟨s1, noisy, _, _, _, _, hs⟩ := step_ok hst
  refine ⟨s0, nz, s'.pm, h0, hn, hs'.pm, ?_, ?_⟩
  · obtain ⟨s1', noisy', ht, hny, hGN, hGel, _⟩ := step_train hv (hr ρ.sample).toG hn hg0
    rw [hs.trunc] at ht; obtain rfl := Except.ok.inj ht
    rw [hs.noise] at hny; obtain rfl := Except.ok.inj hny
    exact hQ _ _ _ _ _ hg0.pm hGN hGel hs.update
  · intro ω g hg
    obtain ⟨s'', b', hst', _⟩ := step_progress (ftol := ftol) (t := 1) hv (hr (fun _ => ω)).toG hnum hn hg0
    refine ⟨s'', b', hst', ?_⟩
    obtain ⟨s1', noisy', _, _, _, _, hs2⟩ := step_ok hst'
    have e1 := hs2.trunc; rw [hs.trunc] at e1; obtain rfl := Except.ok.inj e1
    have e2 := hs2.noise; rw [hs.noise] at e2; obtain rfl := Except.ok.inj e2
    have e3 := hs2.update
    have e3' := hs.update
    simp only at e3 e3'
    rw [e3'] at e3
    have e3 := Except.ok.inj e3
    have e4 := hs2.sample
    simp only at e4
    rw [← e3, hg] at e4
    exact ⟨(Except.ok.inj e4).symm, e3.symm⟩

/-- A run with at least two generations executes the first pass of the loop. -/
theorem first_pass {res : EdaResult R C} {s : St R C σ} (hmax : 2 ≤ e.maxIter)
    (h : minimize env e f ftol pm ρ = .ok (res, s)) :
    ∃ s0 nz s1 brk, start env e f pm ρ = .ok s0 ∧ e.mkNoise ρ.noise = .ok nz ∧
      step env e f ftol ρ nz 1 s0 = .ok (s1, brk) := by
  obtain ⟨s0, nz, h0, hn, hl, _⟩ := minimize_ok h
  have hk : (e.maxIter - 1).toNat = ((e.maxIter - 1).toNat - 1) + 1 := by omega
  rw [hk, loop] at hl
  split at hl
  · simp at hl
  · rename_i s' hs'; exact ⟨s0, nz, s', true, h0, hn, hs'⟩
  · rename_i s' hs'; exact ⟨s0, nz, s', false, h0, hn, hs'⟩

/-- If the first pass fails when the noise is added, so does the run. -/
theorem minimize_noise_error {s0 : St R C σ} {nz : Gen R → Except PyErr (Gen R)} {err : PyErr}
    (hmax : 2 ≤ e.maxIter) (h0 : start env e f pm ρ = .ok s0)
    (hn : e.mkNoise ρ.noise = .ok nz)
    (herr : ∀ s1, truncation env e s0 = .ok s1 → nz s1.gen = .error err) :
    minimize env e f ftol pm ρ = .error err := by
  obtain ⟨_, r0, _, _, _, hs0⟩ := start_ok h0
  obtain ⟨s1, ht⟩ : ∃ s1, truncation env e s0 = .ok s1 := by
    unfold truncation Gen.concat
    rw [if_pos (by rw [hs0.elite])]
    exact ⟨_, rfl⟩
  have hst : step env e f ftol ρ nz 1 s0 = .error err := by
    unfold step
    rw [ht]
    simp only [herr s1 ht]
  have hk : (e.maxIter - 1).toNat = ((e.maxIter - 1).toNat - 1) + 1 := by omega
  unfold minimize
  rw [h0]
  simp only [hn]
  rw [hk, loop, hst]

/-- The second generation recorded by a run is the one of the first pass of the loop. -/
theorem run_second (hv : env.Valid) {res : EdaResult R C} {s s0 s1 : St R C σ} {brk : Bool}
    {nz : Gen R → Except PyErr (Gen R)} (hmax : 2 ≤ e.maxIter)
    (h : minimize env e f ftol pm ρ = .ok (res, s)) (h0 : start env e f pm ρ = .ok s0)
    (hn : e.mkNoise ρ.noise = .ok nz) (hst : step env e f ftol ρ nz 1 s0 = .ok (s1, brk)) :
    s.log[1]?.map (List.map Prod.fst) = some s1.gen.rows := by
  have hlog1 : s1.log[1]?.map (List.map Prod.fst) = some s1.gen.rows := by
    obtain ⟨_, _, ev, _, _, _, hs⟩ := step_ok hst
    obtain ⟨_, _, _, _, _, hs0⟩ := start_ok h0
    rw [hs.log, hs0.log]
    simp only [List.cons_append, List.nil_append, List.getElem?_cons_succ, List.getElem?_cons_zero,
      Option.map_some, Option.some.injEq]
    rw [(check_calls hv hs.check).2, List.map_fst_zip]
    rw [length_callRows]
  have hpre : ∀ n t (a b : St R C σ), loop env e f ftol ρ nz n t a = .ok b →
      ∃ l, b.log = a.log ++ l := by
    intro n
    induction n with
    | zero => intro t a b hl; rw [loop] at hl; exact ⟨[], by rw [← Except.ok.inj hl]; simp⟩
    | succ n ih =>
      intro t a b hl
      rw [loop] at hl
      split at hl
      · simp at hl
      · rename_i s' hs'
        obtain ⟨_, _, ev, _, _, _, hs⟩ := step_ok hs'
        exact ⟨[ev.calls], by rw [← Except.ok.inj hl, hs.log]⟩
      · rename_i s' hs'
        obtain ⟨_, _, ev, _, _, _, hs⟩ := step_ok hs'
        obtain ⟨l, hl⟩ := ih _ _ _ hl
        exact ⟨ev.calls :: l, by rw [hl, hs.log]; simp⟩
  have key : ∃ l, s.log = s1.log ++ l := by
    unfold minimize at h
    rw [h0] at h
    simp only [hn] at h
    have hk : (e.maxIter - 1).toNat = ((e.maxIter - 1).toNat - 1) + 1 := by omega
    rw [hk, loop, hst] at h
    cases brk with
    | true =>
      simp only [Except.ok.injEq, Prod.mk.injEq] at h
      exact ⟨[], by rw [← h.2]; simp⟩
    | false =>
      simp only at h
      split at h
      · simp at h
      · rename_i s' hs'
        simp only [Except.ok.injEq, Prod.mk.injEq] at h
        rw [← h.2]
        exact hpre _ _ _ _ hs'
  obtain ⟨l, hl⟩ := key
  have hlt : 1 < s1.log.length := by
    by_contra hc
    rw [List.getElem?_eq_none (by omega)] at hlog1
    simp at hlog1
  rw [hl, List.getElem?_append_left hlt, hlog1]

/-! ### Independence of the previous state of the model -/

/-- If updating the model gives the same result for related old models, runs from related models
return the same result (or the same exception), with the same evaluations and generations. -/
theorem minimize_pm_irrelevant {Rel : σ → σ → Prop}
    (hu : ∀ a b g el t, Rel a b → e.updatePm a g el (ρ.learn t) = e.updatePm b g el (ρ.learn t))
    {a b : σ} (hab : Rel a b) :
    (minimize env e f ftol a ρ).map (fun x => (x.1, x.2.log)) =
      (minimize env e f ftol b ρ).map (fun x => (x.1, x.2.log)) := by
  have hstart : ∀ a b, start env e f b ρ = (start env e f a ρ).map (fun s => { s with pm := b }) := by
    intro a b
    unfold start
    cases e.initGen ρ.init with
    | error err => rfl
    | ok g =>
      simp only
      cases checkGeneration env e.parallel f 0 g.rows with
      | error err => rfl
      | ok ev =>
        obtain ⟨calls, evals⟩ := ev
        simp only
        cases g.rows with
        | nil => rfl
        | cons r0 rs =>
          cases evals with
          | nil => rfl
          | cons c0 cs =>
            simp only
            cases pyMin (c0 :: cs) with
            | none => rfl
            | some best =>
              simp only
              cases whereFirst (c0 :: cs) best with
              | none => rfl
              | some i => rfl
  have hstep : ∀ noise t (s : St R C σ) (b : σ), Rel s.pm b →
      step env e f ftol ρ noise t { s with pm := b } = step env e f ftol ρ noise t s := by
    intro noise t s b hb
    have htr : truncation env e { s with pm := b } =
        (truncation env e s).map (fun s1 => { s1 with pm := b }) := by
      unfold truncation
      cases s.gen.concat s.elite <;> rfl
    unfold step
    rw [htr]
    cases ht : truncation env e s with
    | error err => rfl
    | ok s1 =>
      have hpm := (truncation_fields ht).2.2.1
      simp only [Except.map]
      cases noise s1.gen with
      | error err => rfl
      | ok noisy =>
        simp only
        rw [← hu s1.pm b noisy s1.elite t (by rw [hpm]; exact hb)]
  unfold minimize
  rw [hstart a b]
  cases h0 : start env e f a ρ with
  | error err => rfl
  | ok s0 =>
    have hpm : s0.pm = a := by
      obtain ⟨_, _, _, _, _, hs⟩ := start_ok h0
      exact hs.pm
    simp only [Except.map]
    cases e.mkNoise ρ.noise with
    | error err => rfl
    | ok noise =>
      simp only
      cases hn : (e.maxIter - 1).toNat with
      | zero => rfl
      | succ n =>
        have : loop env e f ftol ρ noise (n + 1) 1 { s0 with pm := b } =
            loop env e f ftol ρ noise (n + 1) 1 s0 := by
          simp only [loop, hstep noise 1 s0 b (by rw [hpm]; exact hab)]
        rw [this]

end Verif
