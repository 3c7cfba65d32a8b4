/-
Two runs side by side, in distribution: if two algorithms treat related individuals alike and their samples have the
same law (up to the relation), then the results of their runs have the same law.
-/
import Verif.Lemmas.Sim
import Verif.Lemmas.HeadTail

namespace Verif

open PyCost MeasureTheory

set_option linter.unusedSectionVars false

variable {R R' C σ σ' Ω Ω' : Type} [PyCost C]

/-- The algorithm with a sampler that returns one and the same outcome. -/
def Eda.fixed (e : Eda R σ Ω) (G : Except PyErr (Gen R)) : Eda R σ Ω := { e with sample := fun _ _ => G }

/-- The model that pass `t` learns. -/
def learned (env : Env C) (e : Eda R σ Ω) (ρ : Rand Ω) (noise : Gen R → Except PyErr (Gen R)) (t : ℕ)
    (s : St R C σ) : Except PyErr σ :=
  match truncation env e s with
  | .error err => .error err
  | .ok s1 =>
    match noise s1.gen with
    | .error err => .error err
    | .ok noisy => e.updatePm s1.pm noisy s1.elite (ρ.learn t)

variable {env : Env C} {e : Eda R σ Ω} {e' : Eda R' σ' Ω'} {f : ℕ → R → C} {f' : ℕ → R' → C} {ftol : C}
variable {ρ : Rand Ω} {ρ' : Rand Ω'}

theorem step_learned_error {noise : Gen R → Except PyErr (Gen R)} {t : ℕ} {s : St R C σ} {err : PyErr}
    (h : learned env e ρ noise t s = .error err) : step env e f ftol ρ noise t s = .error err := by
  unfold learned at h
  unfold step
  cases h1 : truncation env e s with
  | error err' => rw [h1] at h; simpa using h
  | ok s1 =>
    rw [h1] at h
    simp only at h ⊢
    cases h2 : noise s1.gen with
    | error err' => rw [h2] at h; simpa using h
    | ok noisy =>
      rw [h2] at h
      simp only at h ⊢
      rw [h]

theorem step_learned_ok {noise : Gen R → Except PyErr (Gen R)} {t : ℕ} {s : St R C σ} {m : σ}
    (h : learned env e ρ noise t s = .ok m) (ω : ℕ → Ω) :
    step env e f ftol { ρ with sample := ω } noise t s =
      step env (e.fixed (e.sample m (ω t))) f ftol ρ noise t s := by
  unfold learned at h
  unfold step
  have ht : ∀ G, truncation env (e.fixed G) s = truncation env e s := fun G => rfl
  rw [ht]
  cases h1 : truncation env e s with
  | error err' => rfl
  | ok s1 =>
    rw [h1] at h
    simp only at h ⊢
    cases h2 : noise s1.gen with
    | error err' => rfl
    | ok noisy =>
      rw [h2] at h
      simp only at h ⊢
      have h3 : (e.fixed (e.sample m (ω t))).updatePm s1.pm noisy s1.elite (ρ.learn t) = .ok m := h
      rw [h, h3]
      rfl

theorem loop_samples {noise : Gen R → Except PyErr (Gen R)} {ω ω' : ℕ → Ω} (N : ℕ) :
    ∀ (t : ℕ) (s : St R C σ), (∀ k, t ≤ k → ω k = ω' k) →
    loop env e f ftol { ρ with sample := ω } noise N t s =
      loop env e f ftol { ρ with sample := ω' } noise N t s := by
  induction N with
  | zero => intro t s h; rfl
  | succ N ih =>
    intro t s h
    unfold loop
    have hst : step env e f ftol { ρ with sample := ω } noise t s =
        step env e f ftol { ρ with sample := ω' } noise t s := by
      unfold step
      simp only [h t le_rfl]
    rw [hst]
    cases step env e f ftol { ρ with sample := ω' } noise t s with
    | error err => rfl
    | ok p =>
      obtain ⟨s1, b⟩ := p
      cases b with
      | true => rfl
      | false => exact ih (t + 1) s1 (fun k hk => h k (by omega))

variable [MeasurableSpace Ω] [MeasurableSpace Ω']

/-- Two algorithms that treat related individuals alike and whose samples have the same law up to the relation: the
samples are given by a discrete value with the same law for both. -/
structure LawSim (D : Measure Ω) (D' : Measure Ω') (rr : R → R' → Prop) (n n' : ℕ) (rm0 rm : σ → σ' → Prop)
    (e : Eda R σ Ω) (e' : Eda R' σ' Ω') (ρ : Rand Ω) (ρ' : Rand Ω') : Prop where
  sim : ∀ G G', ExRel (GenRel rr n n') G G' → EdaSim rr n n' rm0 rm (e.fixed G) (e'.fixed G') ρ ρ'
  sample : ∀ m m', rm m m' → ∃ (ι : Type) (_ : Countable ι) (X : Ω → ι) (X' : Ω' → ι)
    (G : ι → Except PyErr (Gen R)) (G' : ι → Except PyErr (Gen R')),
    (∀ x, NullMeasurableSet (X ⁻¹' {x}) D) ∧ (∀ x, NullMeasurableSet (X' ⁻¹' {x}) D') ∧
    (∀ x, D (X ⁻¹' {x}) = D' (X' ⁻¹' {x})) ∧ (∀ x, ExRel (GenRel rr n n') (G x) (G' x)) ∧
    (∀ᵐ ω ∂D, e.sample m ω = G (X ω)) ∧ ∀ᵐ ω ∂D', e'.sample m' ω = G' (X' ω)

variable {D : Measure Ω} {D' : Measure Ω'} {rr : R → R' → Prop} {n n' : ℕ} {rm0 rm : σ → σ' → Prop}

theorem learned_sim (h : LawSim D D' rr n n' rm0 rm e e' ρ ρ')
    {N : Gen R → Except PyErr (Gen R)} {N' : Gen R' → Except PyErr (Gen R')}
    (hN : ∀ g g', GenRel rr n n' g g' → ExRel (GenRel rr n n') (N g) (N' g')) (t : ℕ)
    {s : St R C σ} {s' : St R' C σ'} (hs : StRel rr n n' rm0 s s') :
    ExRel rm (learned env e ρ N t s) (learned env e' ρ' N' t s') := by
  have hsim := h.sim _ _ (.error .exception)
  have ht := truncation_sim (env := env) hsim hs
  have h1 : truncation env (e.fixed (.error .exception)) s = truncation env e s := rfl
  have h2 : truncation env (e'.fixed (.error .exception)) s' = truncation env e' s' := rfl
  rw [h1, h2] at ht
  unfold learned
  rcases hx : truncation env e s with err | s1 <;> rcases hx' : truncation env e' s' with err' | s1'
  · rw [hx, hx'] at ht; cases ht; exact .error _
  · rw [hx, hx'] at ht; cases ht
  · rw [hx, hx'] at ht; cases ht
  rw [hx, hx'] at ht
  obtain ⟨hs1⟩ := ht
  simp only
  have hn := hN _ _ hs1.gen
  rcases hy : N s1.gen with err | noisy <;> rcases hy' : N' s1'.gen with err' | noisy'
  · rw [hy, hy'] at hn; cases hn; exact .error _
  · rw [hy, hy'] at hn; cases hn
  · rw [hy, hy'] at hn; cases hn
  rw [hy, hy'] at hn
  obtain ⟨hn⟩ := hn
  exact hsim.learn t _ _ _ _ _ _ hs1.pm hn hs1.elite

/-- An event about the runs, the same for related outcomes. -/
def SameEvent (rr : R → R' → Prop) (n n' : ℕ) (rm0 : σ → σ' → Prop) (B : Set (Except PyErr (St R C σ)))
    (B' : Set (Except PyErr (St R' C σ'))) : Prop :=
  ∀ a a', ExRel (StRel rr n n' rm0) a a' → (a ∈ B ↔ a' ∈ B')

theorem const_event {X : Type} [MeasurableSpace X] (P : Measure X) [IsProbabilityMeasure P] (p : Prop) :
    NullMeasurableSet {_ω : X | p} P ∧ P {_ω : X | p} = ⨆ _ : p, 1 := by
  by_cases hp : p
  · simp [hp]
  · simp [hp]

theorem loop_law [IsProbabilityMeasure D] [IsProbabilityMeasure D'] (hv : env.Valid)
    (h : LawSim D D' rr n n' rm0 rm e e' ρ ρ') (hf : ∀ k r r', rr r r' → f' k r' = f k r)
    {N : Gen R → Except PyErr (Gen R)} {N' : Gen R' → Except PyErr (Gen R')}
    (hN : ∀ g g', GenRel rr n n' g g' → ExRel (GenRel rr n n') (N g) (N' g'))
    {B : Set (Except PyErr (St R C σ))} {B' : Set (Except PyErr (St R' C σ'))}
    (hB : SameEvent rr n n' rm0 B B') (k : ℕ) :
    ∀ (t : ℕ) {s : St R C σ} {s' : St R' C σ'}, StRel rr n n' rm0 s s' →
    NullMeasurableSet {ω | loop env e f ftol { ρ with sample := fun i => ω (i - t) } N k t s ∈ B}
      (Measure.infinitePi fun _ : ℕ => D) ∧
    NullMeasurableSet {ω | loop env e' f' ftol { ρ' with sample := fun i => ω (i - t) } N' k t s' ∈ B'}
      (Measure.infinitePi fun _ : ℕ => D') ∧
    (Measure.infinitePi fun _ : ℕ => D)
      {ω | loop env e f ftol { ρ with sample := fun i => ω (i - t) } N k t s ∈ B} =
    (Measure.infinitePi fun _ : ℕ => D')
      {ω | loop env e' f' ftol { ρ' with sample := fun i => ω (i - t) } N' k t s' ∈ B'} := by
  induction k with
  | zero =>
    intro t s s' hs
    have hiff := hB _ _ (.ok hs)
    have c1 := const_event (Measure.infinitePi fun _ : ℕ => D) (Except.ok s ∈ B)
    have c2 := const_event (Measure.infinitePi fun _ : ℕ => D') (Except.ok s' ∈ B')
    refine ⟨c1.1, c2.1, ?_⟩
    simp only [loop]
    rw [c1.2, c2.2]
    simp only [hiff]
  | succ k ih =>
    intro t s s' hs
    have hl := learned_sim (env := env) h hN t hs
    rcases hm : learned env e ρ N t s with err | m <;> rcases hm' : learned env e' ρ' N' t s' with err' | m'
    · rw [hm, hm'] at hl
      cases hl
      have h1 : ∀ ω : ℕ → Ω, loop env e f ftol { ρ with sample := ω } N (k + 1) t s = .error err := by
        intro ω
        have := step_learned_error (f := f) (ftol := ftol) (ρ := { ρ with sample := ω }) (env := env) (e := e)
          (noise := N) (t := t) (s := s) hm
        unfold loop
        rw [this]
      have h2 : ∀ ω : ℕ → Ω', loop env e' f' ftol { ρ' with sample := ω } N' (k + 1) t s' = .error err := by
        intro ω
        have := step_learned_error (f := f') (ftol := ftol) (ρ := { ρ' with sample := ω }) (env := env) (e := e')
          (noise := N') (t := t) (s := s') hm'
        unfold loop
        rw [this]
      simp only [h1, h2]
      have c1 := const_event (Measure.infinitePi fun _ : ℕ => D) (Except.error err ∈ B)
      have c2 := const_event (Measure.infinitePi fun _ : ℕ => D') (Except.error err ∈ B')
      refine ⟨c1.1, c2.1, ?_⟩
      rw [c1.2, c2.2]
      simp only [hB _ _ (.error err)]
    · rw [hm, hm'] at hl; cases hl
    · rw [hm, hm'] at hl; cases hl
    rw [hm, hm'] at hl
    obtain ⟨hl⟩ := hl
    obtain ⟨ι, hι, X, X', G, G', hX, hX', hXX, hG, hae, hae'⟩ := h.sample m m' hl
    -- what is left of the run once the sample is known
    set F : ι → Set (ℕ → Ω) := fun x => {ω |
      (match step env (e.fixed (G x)) f ftol ρ N t s with
      | .error err => .error err
      | .ok (s1, true) => .ok s1
      | .ok (s1, false) => loop env e f ftol { ρ with sample := fun i => ω (i - (t + 1)) } N k (t + 1) s1) ∈ B}
      with hF
    set F' : ι → Set (ℕ → Ω') := fun x => {ω |
      (match step env (e'.fixed (G' x)) f' ftol ρ' N' t s' with
      | .error err => .error err
      | .ok (s1, true) => .ok s1
      | .ok (s1, false) => loop env e' f' ftol { ρ' with sample := fun i => ω (i - (t + 1)) } N' k (t + 1) s1) ∈ B'}
      with hF'
    have hkey : ∀ x, NullMeasurableSet (F x) (Measure.infinitePi fun _ : ℕ => D) ∧
        NullMeasurableSet (F' x) (Measure.infinitePi fun _ : ℕ => D') ∧
        (Measure.infinitePi fun _ : ℕ => D) (F x) = (Measure.infinitePi fun _ : ℕ => D') (F' x) := by
      intro x
      have hst := step_sim (ftol := ftol) hv (h.sim _ _ (hG x)) hf hN t hs
      simp only [hF, hF']
      rcases hx : step env (e.fixed (G x)) f ftol ρ N t s with err | ⟨s1, b⟩ <;>
        rcases hx' : step env (e'.fixed (G' x)) f' ftol ρ' N' t s' with err' | ⟨s1', b'⟩
      · rw [hx, hx'] at hst
        cases hst
        have c1 := const_event (Measure.infinitePi fun _ : ℕ => D) (Except.error err ∈ B)
        have c2 := const_event (Measure.infinitePi fun _ : ℕ => D') (Except.error err ∈ B')
        refine ⟨c1.1, c2.1, ?_⟩
        simp only
        rw [c1.2, c2.2]
        simp only [hB _ _ (.error err)]
      · rw [hx, hx'] at hst; cases hst
      · rw [hx, hx'] at hst; cases hst
      rw [hx, hx'] at hst
      obtain ⟨h1, h2⟩ := hst
      simp only at h1 h2
      subst h2
      cases b' with
      | true =>
        have c1 := const_event (Measure.infinitePi fun _ : ℕ => D) (Except.ok s1 ∈ B)
        have c2 := const_event (Measure.infinitePi fun _ : ℕ => D') (Except.ok s1' ∈ B')
        refine ⟨c1.1, c2.1, ?_⟩
        simp only
        rw [c1.2, c2.2]
        simp only [hB _ _ (.ok h1)]
      | false => exact ih (t + 1) h1
    have hloop : ∀ u ω, e.sample m u = G (X u) →
        (seqCons (u, ω) ∈ {ω | loop env e f ftol { ρ with sample := fun i => ω (i - t) } N (k + 1) t s ∈ B} ↔
          ω ∈ F (X u)) := by
      intro u ω hu
      simp only [Set.mem_ofPred_eq, hF]
      have h1 := step_learned_ok (f := f) (ftol := ftol) hm (fun i => seqCons (u, ω) (i - t))
      have h0 : seqCons (u, ω) (t - t) = u := by rw [Nat.sub_self]; rfl
      simp only [h0, hu] at h1
      have h2 : ∀ s1 : St R C σ, loop env e f ftol { ρ with sample := fun i => seqCons (u, ω) (i - t) } N k (t + 1) s1 =
          loop env e f ftol { ρ with sample := fun i => ω (i - (t + 1)) } N k (t + 1) s1 := by
        intro s1
        refine loop_samples k (t + 1) s1 fun i hi => ?_
        obtain ⟨j, rfl⟩ : ∃ j, i = t + 1 + j := ⟨i - (t + 1), by omega⟩
        rw [Nat.add_sub_cancel_left, show t + 1 + j - t = j + 1 by omega]
        rfl
      conv_lhs => unfold loop
      rw [h1]
      rcases step env (e.fixed (G (X u))) f ftol ρ N t s with err | ⟨s1, _ | _⟩ <;> simp only [h2]
    have hloop' : ∀ u ω, e'.sample m' u = G' (X' u) →
        (seqCons (u, ω) ∈ {ω | loop env e' f' ftol { ρ' with sample := fun i => ω (i - t) } N' (k + 1) t s' ∈ B'} ↔
          ω ∈ F' (X' u)) := by
      intro u ω hu
      simp only [Set.mem_ofPred_eq, hF']
      have h1 := step_learned_ok (f := f') (ftol := ftol) hm' (fun i => seqCons (u, ω) (i - t))
      have h0 : seqCons (u, ω) (t - t) = u := by rw [Nat.sub_self]; rfl
      simp only [h0, hu] at h1
      have h2 : ∀ s1 : St R' C σ', loop env e' f' ftol { ρ' with sample := fun i => seqCons (u, ω) (i - t) } N' k (t + 1) s1 =
          loop env e' f' ftol { ρ' with sample := fun i => ω (i - (t + 1)) } N' k (t + 1) s1 := by
        intro s1
        refine loop_samples k (t + 1) s1 fun i hi => ?_
        obtain ⟨j, rfl⟩ : ∃ j, i = t + 1 + j := ⟨i - (t + 1), by omega⟩
        rw [Nat.add_sub_cancel_left, show t + 1 + j - t = j + 1 by omega]
        rfl
      conv_lhs => unfold loop
      rw [h1]
      rcases step env (e'.fixed (G' (X' u))) f' ftol ρ' N' t s' with err | ⟨s1, _ | _⟩ <;> simp only [h2]
    obtain ⟨a1, a2⟩ := headTail_measure D hX (fun x => (hkey x).1) (E := {ω | loop env e f ftol
      { ρ with sample := fun i => ω (i - t) } N (k + 1) t s ∈ B})
      (by filter_upwards [hae] with u hu ω using hloop u ω hu)
    obtain ⟨b1, b2⟩ := headTail_measure D' hX' (fun x => (hkey x).2.1) (E := {ω | loop env e' f' ftol
      { ρ' with sample := fun i => ω (i - t) } N' (k + 1) t s' ∈ B'})
      (by filter_upwards [hae'] with u hu ω using hloop' u ω hu)
    refine ⟨a1, b1, ?_⟩
    rw [a2, b2]
    exact tsum_congr fun x => by rw [hXX x, (hkey x).2.2]

/-- **The results of the runs have the same law**, up to the relation. -/
theorem minimize_law [IsProbabilityMeasure D] [IsProbabilityMeasure D'] (hv : env.Valid)
    (h : LawSim D D' rr n n' rm0 rm e e' ρ ρ') (hf : ∀ k r r', rr r r' → f' k r' = f k r) {m : σ} {m' : σ'}
    (hm : rm0 m m') {A : Set (Except PyErr (EdaResult R C × St R C σ))}
    {A' : Set (Except PyErr (EdaResult R' C × St R' C σ'))}
    (hA : ∀ a a', ExRel (fun x y => ResRel rr x.1 y.1 ∧ StRel rr n n' rm0 x.2 y.2) a a' → (a ∈ A ↔ a' ∈ A')) :
    (Measure.infinitePi fun _ : ℕ => D) {ω | minimize env e f ftol m { ρ with sample := ω } ∈ A} =
    (Measure.infinitePi fun _ : ℕ => D') {ω | minimize env e' f' ftol m' { ρ' with sample := ω } ∈ A'} := by
  have hsim := h.sim _ _ (.error .exception)
  have h0 := start_sim hv hsim hf hm
  have e1 : ∀ ω : ℕ → Ω, start env e f m { ρ with sample := ω } =
      start env (e.fixed (.error .exception)) f m ρ := fun ω => rfl
  have e2 : ∀ ω : ℕ → Ω', start env e' f' m' { ρ' with sample := ω } =
      start env (e'.fixed (.error .exception)) f' m' ρ' := fun ω => rfl
  unfold minimize
  simp only [e1, e2]
  rcases hx : start env (e.fixed (.error .exception)) f m ρ with err | s <;>
    rcases hx' : start env (e'.fixed (.error .exception)) f' m' ρ' with err' | s'
  · rw [hx, hx'] at h0
    cases h0
    have c1 := const_event (Measure.infinitePi fun _ : ℕ => D) (Except.error err ∈ A)
    have c2 := const_event (Measure.infinitePi fun _ : ℕ => D') (Except.error err ∈ A')
    simp only
    rw [c1.2, c2.2]
    simp only [hA _ _ (.error err)]
  · rw [hx, hx'] at h0; cases h0
  · rw [hx, hx'] at h0; cases h0
  rw [hx, hx'] at h0
  obtain ⟨h0⟩ := h0
  simp only
  have hn := hsim.noise
  simp only [Eda.fixed] at hn
  rcases hy : e.mkNoise ρ.noise with err | N <;> rcases hy' : e'.mkNoise ρ'.noise with err' | N'
  · rw [hy, hy'] at hn
    cases hn
    have c1 := const_event (Measure.infinitePi fun _ : ℕ => D) (Except.error err ∈ A)
    have c2 := const_event (Measure.infinitePi fun _ : ℕ => D') (Except.error err ∈ A')
    simp only
    rw [c1.2, c2.2]
    simp only [hA _ _ (.error err)]
  · rw [hy, hy'] at hn; cases hn
  · rw [hy, hy'] at hn; cases hn
  rw [hy, hy'] at hn
  obtain ⟨hn⟩ := hn
  have hmax : e'.maxIter = e.maxIter := hsim.maxIter
  have hsize : e'.sizeGen = e.sizeGen := hsim.sizeGen
  simp only [hmax, hsize]
  set B : Set (Except PyErr (St R C σ)) := {a | (match a with
    | .error err => .error err
    | .ok s => .ok (({ bestInd := s.bestInd, bestCost := s.bestCost, nFev := s.history.length * e.sizeGen,
                       history := s.history } : EdaResult R C), s)) ∈ A} with hBdef
  set B' : Set (Except PyErr (St R' C σ')) := {a | (match a with
    | .error err => .error err
    | .ok s => .ok (({ bestInd := s.bestInd, bestCost := s.bestCost, nFev := s.history.length * e.sizeGen,
                       history := s.history } : EdaResult R' C), s)) ∈ A'} with hBdef'
  have hB : SameEvent rr n n' rm0 B B' := by
    intro a a' haa
    refine hA _ _ ?_
    cases haa with
    | error err => exact .error err
    | ok hs => exact .ok ⟨⟨hs.bestInd, hs.bestCost, by simp only [hs.history], hs.history⟩, hs⟩
  obtain ⟨n1, n2, n3⟩ := loop_law (ftol := ftol) hv h hf hn hB (e.maxIter - 1).toNat 1 h0
  have hs : ∀ (u : Ω) (ω : ℕ → Ω) (s : St R C σ) (k : ℕ),
      loop env e f ftol { ρ with sample := seqCons (u, ω) } N k 1 s =
      loop env e f ftol { ρ with sample := fun i => ω (i - 1) } N k 1 s := by
    intro u ω s k
    refine loop_samples k 1 s fun i hi => ?_
    obtain ⟨j, rfl⟩ : ∃ j, i = j + 1 := ⟨i - 1, by omega⟩
    rfl
  have hs' : ∀ (u : Ω') (ω : ℕ → Ω') (s : St R' C σ') (k : ℕ),
      loop env e' f' ftol { ρ' with sample := seqCons (u, ω) } N' k 1 s =
      loop env e' f' ftol { ρ' with sample := fun i => ω (i - 1) } N' k 1 s := by
    intro u ω s k
    refine loop_samples k 1 s fun i hi => ?_
    obtain ⟨j, rfl⟩ : ∃ j, i = j + 1 := ⟨i - 1, by omega⟩
    rfl
  have p1 := (headTail_measure D (X := fun _ => ()) (fun x => (MeasurableSet.const _).nullMeasurableSet) (fun _ => n1)
    (E := {ω | loop env e f ftol { ρ with sample := ω } N (e.maxIter - 1).toNat 1 s ∈ B})
    (Filter.Eventually.of_forall fun u ω => by simp only [Set.mem_ofPred_eq, hs])).2
  have p2 := (headTail_measure D' (X := fun _ => ()) (fun x => (MeasurableSet.const _).nullMeasurableSet) (fun _ => n2)
    (E := {ω | loop env e' f' ftol { ρ' with sample := ω } N' (e.maxIter - 1).toNat 1 s' ∈ B'})
    (Filter.Eventually.of_forall fun u ω => by simp only [Set.mem_ofPred_eq, hs'])).2
  have q1 : (Measure.infinitePi fun _ : ℕ => D)
      {ω | loop env e f ftol { ρ with sample := ω } N (e.maxIter - 1).toNat 1 s ∈ B} =
      (Measure.infinitePi fun _ : ℕ => D')
      {ω | loop env e' f' ftol { ρ' with sample := ω } N' (e.maxIter - 1).toNat 1 s' ∈ B'} := by
    rw [p1, p2, n3]
    simp
  exact q1

end Verif
