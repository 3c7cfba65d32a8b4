/-
C73: cost functions that change the array they receive.
-/
import Verif.Model.Mutate
import Verif.Spec.Mutate
import Verif.Lemmas.Core
import Verif.Lemmas.UniBin
import Verif.Model.Examples

set_option linter.unusedSectionVars false

namespace Verif

open PyCost Spec

section

variable {R C σ Ω : Type} [PyCost C] {env : Env C} {e e' : Eda R σ Ω} {f : ℕ → R → C × R} {ftol : C}
variable {g : ℕ → R → C} {ρ : Rand Ω} {pm : σ} {noise : Gen R → Except PyErr (Gen R)}

/-- Two ways of running agree if they agree on every generation. -/
theorem loopM_congr (h : ∀ t s, stepM env e f ftol ρ noise t s = step env e' g ftol ρ noise t s) :
    ∀ n t s, loopM env e f ftol ρ noise n t s = loop env e' g ftol ρ noise n t s
  | 0, _, _ => rfl
  | n + 1, t, s => by
    unfold loopM loop
    rw [h t s]
    rcases step env e' g ftol ρ noise t s with err | ⟨s', _ | _⟩
    · rfl
    · exact loopM_congr h n (t + 1) s'
    · rfl

theorem minimizeM_congr (h0 : startM env e f pm ρ = start env e' g pm ρ)
    (h : ∀ noise t s, stepM env e f ftol ρ noise t s = step env e' g ftol ρ noise t s)
    (hn : e'.mkNoise = e.mkNoise) (hm : e'.maxIter = e.maxIter) (hs : e'.sizeGen = e.sizeGen) :
    minimizeM env e f ftol pm ρ = minimize env e' g ftol pm ρ := by
  unfold minimizeM minimize
  rw [h0, hn, hm, hs]
  rcases start env e' g pm ρ with err | s0
  · rfl
  rcases e.mkNoise ρ.noise with err | noise
  · rfl
  simp only [loopM_congr (h noise)]
  rcases loop env e' g ftol ρ noise (e.maxIter - 1).toNat 1 s0 <;> rfl

/-- If evaluating a generation is the same as evaluating `post` of it with `g`, then the run is that of the
algorithm with `post` after its initializer and its sampler. -/
theorem minimizeM_post {post : Gen R → Gen R}
    (hc : ∀ k (gen : Gen R), checkGenerationM env e.parallel f k gen =
      (checkGeneration env e.parallel g k (post gen).rows).map (fun ev => (ev, post gen))) :
    minimizeM env e f ftol pm ρ = minimize env
      { e with initGen := fun ω => (e.initGen ω).map post
               sample := fun pm ω => (e.sample pm ω).map post } g ftol pm ρ := by
  refine minimizeM_congr ?_ ?_ rfl rfl rfl
  · unfold startM start
    simp only
    rcases e.initGen ρ.init with err | gen
    · rfl
    simp only [hc, Except.map]
    rcases checkGeneration env e.parallel g 0 (post gen).rows with err | ⟨calls, evals⟩ <;> rfl
  · intro noise t s
    unfold stepM step
    rw [show truncation env { e with initGen := fun ω => (e.initGen ω).map post
                                     sample := fun pm ω => (e.sample pm ω).map post } s =
      truncation env e s from rfl]
    rcases truncation env e s with err | s1
    · rfl
    simp only
    rcases noise s1.gen with err | noisy
    · rfl
    simp only
    rcases e.updatePm s1.pm noisy s1.elite (ρ.learn t) with err | pm
    · rfl
    simp only
    rcases e.sample pm (ρ.sample t) with err | gen
    · rfl
    simp only [hc, Except.map]
    rcases checkGeneration env e.parallel g s1.log.flatten.length (post gen).rows with
      err | ⟨calls, evals⟩ <;> rfl

theorem map_id_gen {ε α : Type} (x : Except ε α) : x.map (fun a => a) = x := by cases x <;> rfl

/-- **C73** With `parallelize` the changes are lost: the run is that of a cost function that works on a
copy. -/
theorem C73_parallel (hp : e.parallel = true) :
    minimizeM env e f ftol pm ρ = minimize env e (onCopy f) ftol pm ρ := by
  have := minimizeM_post (env := env) (e := e) (f := f) (g := onCopy f) (post := fun g => g) (ftol := ftol)
    (pm := pm) (ρ := ρ) (by
      intro k g
      unfold checkGenerationM
      rw [show (fun k r => (f k r).1) = onCopy f from rfl]
      rcases checkGeneration env e.parallel (onCopy f) k g.rows with err | ev
      · rfl
      · simp [hp, Except.map])
  simpa only [map_id_gen] using this

theorem seq_calls {k : ℕ} {rows : List R} {ev : Evaluated R C}
    (h : applyAlong g k rows = .ok ev) : ev.calls = rows.zip (callRows g k rows) := by
  unfold applyAlong at h
  rcases hc : callRows g k rows with _ | ⟨c0, cs⟩ <;> rw [hc] at h <;> cases h
  rfl

theorem callRows_length (g : ℕ → R → C) (k : ℕ) (rows : List R) :
    (callRows g k rows).length = rows.length := by simp [callRows]

theorem mapIdx_const {α β : Type} (h : α → β) (l : List α) : l.mapIdx (fun _ r => h r) = l.map h := by
  refine List.ext_getElem? (fun i => ?_)
  simp

/-- A cost function that leaves its argument as it is: nothing is new. -/
theorem minimizeM_pure (hf : ∀ k r, (f k r).2 = r) :
    minimizeM env e f ftol pm ρ = minimize env e (onCopy f) ftol pm ρ := by
  rcases hp : e.parallel with _ | _
  swap
  · exact C73_parallel hp
  have := minimizeM_post (env := env) (e := e) (f := f) (g := onCopy f) (post := fun g => g) (ftol := ftol)
    (pm := pm) (ρ := ρ) (by
      intro k g
      unfold checkGenerationM
      rw [show (fun k r => (f k r).1) = onCopy f from rfl]
      rcases hc : checkGeneration env e.parallel (onCopy f) k g.rows with err | ev
      · rfl
      · have h2 : g.rows.mapIdx (fun i r => (f (k + i) r).2) = g.rows := by
          simp only [hf]
          simpa using mapIdx_const (fun r : R => r) g.rows
        rw [hp] at hc
        have h3 := seq_calls (g := onCopy f) hc
        have h4 : g.rows.zip (ev.calls.map Prod.snd) = ev.calls := by
          rw [h3, List.map_snd_zip (by rw [callRows_length])]
        simp only [hp, h2, h4, Except.map]
        rfl)
  simpa only [map_id_gen] using this

/-- **C73** Without `parallelize` a cost function that repairs individuals in place gives the run of the
algorithm in which every individual is repaired as soon as it is created: selection, learning, elite and
best individual only see repaired individuals, together with their costs. -/
theorem C73_sequential {π : R → R} {c : R → C} (hp : e.parallel = false) :
    minimizeM env e (repairing π c) ftol pm ρ = minimize env (repaired π e) (fun _ => c) ftol pm ρ := by
  refine minimizeM_post (post := fun g => { g with rows := g.rows.map π }) ?_
  intro k g
  unfold checkGenerationM checkGeneration
  simp only [hp, Bool.false_eq_true, if_false]
  have h1 : callRows (fun k r => (repairing π c k r).1) k g.rows = callRows (fun _ => c) k (g.rows.map π) := by
    simp only [callRows, repairing]
    rw [mapIdx_const (fun r => c (π r)), mapIdx_const c, List.map_map]
    rfl
  have h2 : g.rows.mapIdx (fun i r => (repairing π c (k + i) r).2) = g.rows.map π := by
    simp only [repairing]
    exact mapIdx_const π g.rows
  unfold applyAlong
  rw [h1, h2]
  rcases hcr : callRows (fun _ => c) k (g.rows.map π) with _ | ⟨c0, cs⟩
  · rfl
  · have hl := callRows_length (fun _ => c) k (g.rows.map π)
    rw [hcr] at hl
    simp only [Except.map]
    rw [List.map_snd_zip (by rw [hl]; simp)]

/-- Sequential evaluation: call `k + i` receives row `i`, returns its cost and leaves the row recorded. -/
theorem checkM_seq [UniformCost C] {k : ℕ} {gen gen' : Gen R} {ev : Evaluated R C}
    (h : checkGenerationM env false f k gen = .ok (ev, gen')) :
    ev.calls = gen'.rows.zip ev.stored ∧ ev.stored.length = gen'.rows.length ∧
      ∀ i x c, ev.calls[i]? = some (x, c) → ∃ r, f (k + i) r = (c, x) := by
  unfold checkGenerationM checkGeneration applyAlong at h
  simp only [Bool.false_eq_true, if_false] at h
  rcases hc : callRows (fun k r => (f k r).1) k gen.rows with _ | ⟨c0, cs⟩ <;> rw [hc] at h <;> cases h
  have hl := callRows_length (fun k r => (f k r).1) k gen.rows
  rw [hc] at hl
  have hs : c0 :: cs.map (castLike c0) = callRows (fun k r => (f k r).1) k gen.rows := by
    rw [hc]
    congr 1
    conv_rhs => rw [← List.map_id cs]
    exact List.map_congr_left (fun x _ => UniformCost.cast_eq _ _)
  have hm : (gen.rows.zip (c0 :: cs)).map Prod.snd = c0 :: cs := List.map_snd_zip (by rw [hl])
  rw [← hc] at hm
  simp only [hs, ← hc, hm]
  refine ⟨trivial, by simp [callRows], ?_⟩
  intro i x c hi
  rw [List.getElem?_zip_eq_some] at hi
  obtain ⟨h1, h2⟩ := hi
  simp only [callRows, List.getElem?_mapIdx, Option.map_eq_some_iff] at h1 h2
  obtain ⟨r, hr, rfl⟩ := h1
  obtain ⟨r', hr', rfl⟩ := h2
  rw [hr] at hr'
  cases hr'
  exact ⟨r, rfl⟩

/-- What holds in every state of a sequential run: the record of calls is right, the individuals in memory
are as left by the cost function, and so is the best one. -/
structure LeftInv (f : ℕ → R → C × R) (s : St R C σ) : Prop where
  calls : ∀ k x c, s.log.flatten[k]? = some (x, c) → ∃ r, f k r = (c, x)
  gen : ∀ x ∈ s.gen.rows, ∃ c, (x, c) ∈ s.log.flatten
  elite : ∀ x ∈ s.elite.rows, ∃ c, (x, c) ∈ s.log.flatten
  row : ∀ x, s.bestInd = .row x → ∃ c, (x, c) ∈ s.log.flatten ∧ eq c s.bestCost = true
  index : ∀ i, s.bestInd = .index i → ∃ x c, s.log.flatten[i]? = some (x, c) ∧ eq c s.bestCost = true

theorem startM_left [UniformCost C] (hp : e.parallel = false) {s : St R C σ}
    (h : startM env e f pm ρ = .ok s) : LeftInv f s := by
  unfold startM at h
  rcases hg : e.initGen ρ.init with err | gen <;> rw [hg] at h
  · cases h
  simp only [hp] at h
  rcases hc : checkGenerationM env false f 0 gen with err | ⟨⟨calls, evals⟩, gen'⟩ <;> rw [hc] at h
  · cases h
  obtain ⟨h1, h2, h3⟩ := checkM_seq hc
  simp only at h h1 h2 h3
  have hin : ∀ x ∈ gen'.rows, ∃ c, (x, c) ∈ calls := by
    intro x hx
    obtain ⟨i, hi, rfl⟩ := List.getElem_of_mem hx
    refine ⟨evals[i]'(by omega), ?_⟩
    rw [h1]
    exact List.mem_of_getElem? (i := i)
      (by rw [List.getElem?_zip_eq_some]; exact ⟨List.getElem?_eq_getElem hi, List.getElem?_eq_getElem _⟩)
  rcases hr : gen'.rows with _ | ⟨r0, rs⟩ <;> rw [hr] at h
  · cases h
  rcases he : evals with _ | ⟨c0, cs⟩ <;> rw [he] at h
  · cases h
  simp only [← he] at h
  rcases hm : pyMin evals with _ | best <;> rw [hm] at h
  · cases h
  simp only at h
  rcases hw : whereFirst evals best with _ | i <;> rw [hw] at h
  · cases h
  cases h
  refine ⟨?_, ?_, ?_, ?_, ?_⟩
  · intro k x c hk
    simpa using h3 k x c (by simpa using hk)
  · simpa using hin
  · intro x hx
    simp only [List.mem_singleton] at hx
    subst hx
    simpa using hin x (by rw [hr]; simp)
  · intro x hx
    cases hx
  · intro j hj
    cases hj
    obtain ⟨c, hc1, hc2⟩ := whereFirst_some hw
    have hlt : i < evals.length := (List.getElem?_eq_some_iff.1 hc1).1
    refine ⟨gen'.rows[i]'(by omega), c, ?_, hc2⟩
    simp only [List.flatten_cons, List.flatten_nil, List.append_nil, h1]
    rw [List.getElem?_zip_eq_some]
    exact ⟨List.getElem?_eq_getElem _, hc1⟩

theorem stepM_left [UniformCost C] (hp : e.parallel = false) {t : ℕ} {s s' : St R C σ} {b : Bool}
    (hs : LeftInv f s) (h : stepM env e f ftol ρ noise t s = .ok (s', b)) : LeftInv f s' := by
  unfold stepM at h
  rcases ht : truncation env e s with err | s1 <;> rw [ht] at h
  · cases h
  have hlog : s1.log = s.log ∧ s1.bestInd = s.bestInd ∧ s1.bestCost = s.bestCost ∧
      ∀ x ∈ s1.elite.rows, ∃ c, (x, c) ∈ s.log.flatten := by
    unfold truncation at ht
    rcases hcc : s.gen.concat s.elite with err | gg <;> rw [hcc] at ht <;> cases ht
    refine ⟨rfl, rfl, rfl, ?_⟩
    intro x hx
    simp only [Gen.takeIdx, takeIdx, List.mem_filterMap] at hx
    obtain ⟨i, _, hx⟩ := hx
    have hx := List.mem_of_getElem? hx
    unfold Gen.concat at hcc
    split at hcc
    · cases hcc
      rcases List.mem_append.1 hx with hx | hx
      · exact hs.gen x hx
      · exact hs.elite x hx
    · cases hcc
  obtain ⟨hl, hbi, hbc, hel⟩ := hlog
  simp only at h
  rcases hn : noise s1.gen with err | noisy <;> rw [hn] at h
  · cases h
  simp only at h
  rcases hu : e.updatePm s1.pm noisy s1.elite (ρ.learn t) with err | pm <;> rw [hu] at h
  · cases h
  simp only at h
  rcases hsa : e.sample pm (ρ.sample t) with err | gen <;> rw [hsa] at h
  · cases h
  simp only [hp] at h
  rcases hc : checkGenerationM env false f s1.log.flatten.length gen with err | ⟨⟨calls, evals⟩, gen'⟩ <;>
    rw [hc] at h
  · cases h
  obtain ⟨h1, h2, h3⟩ := checkM_seq hc
  simp only at h h1 h2 h3
  rcases hm : pyMin evals with _ | best <;> rw [hm] at h
  · cases h
  simp only at h
  rcases hw : whereFirst evals best with _ | i <;> rw [hw] at h
  · cases h
  simp only at h
  rcases hi : gen'.rows[i]? with _ | ind <;> rw [hi] at h
  · cases h
  simp only at h
  rw [hl] at h3
  have hin : ∀ x ∈ gen'.rows, ∃ c, (x, c) ∈ calls := by
    intro x hx
    obtain ⟨i, hi, rfl⟩ := List.getElem_of_mem hx
    refine ⟨evals[i]'(by omega), ?_⟩
    rw [h1]
    exact List.mem_of_getElem? (i := i)
      (by rw [List.getElem?_zip_eq_some]; exact ⟨List.getElem?_eq_getElem hi, List.getElem?_eq_getElem _⟩)
  have hflat : (s1.log ++ [calls]).flatten = s.log.flatten ++ calls := by simp [hl]
  have hcalls : ∀ k x c, (s1.log ++ [calls]).flatten[k]? = some (x, c) → ∃ r, f k r = (c, x) := by
    intro k x c hk
    rw [hflat] at hk
    rcases lt_or_ge k s.log.flatten.length with hk' | hk'
    · rw [List.getElem?_append_left hk'] at hk
      exact hs.calls k x c hk
    · rw [List.getElem?_append_right hk'] at hk
      have := h3 _ x c hk
      rwa [Nat.add_sub_cancel' hk'] at this
  have hg : ∀ x ∈ gen'.rows, ∃ c, (x, c) ∈ (s1.log ++ [calls]).flatten := by
    intro x hx
    obtain ⟨c, hc⟩ := hin x hx
    exact ⟨c, by rw [hflat]; exact List.mem_append_right _ hc⟩
  have he : ∀ x ∈ s1.elite.rows, ∃ c, (x, c) ∈ (s1.log ++ [calls]).flatten := by
    intro x hx
    obtain ⟨c, hc⟩ := hel x hx
    exact ⟨c, by rw [hflat]; exact List.mem_append_left _ hc⟩
  split at h
  · cases h
    refine ⟨hcalls, hg, he, ?_, ?_⟩
    · intro x hx
      cases hx
      obtain ⟨c, hc1, hc2⟩ := whereFirst_some hw
      refine ⟨c, ?_, hc2⟩
      simp only
      rw [hflat, h1]
      exact List.mem_append_right _ (List.mem_of_getElem? (i := i)
        (by rw [List.getElem?_zip_eq_some]; exact ⟨hi, hc1⟩))
    · intro j hj
      cases hj
  · cases h
    refine ⟨hcalls, hg, he, ?_, ?_⟩
    · intro x hx
      simp only at hx ⊢
      rw [hbi] at hx
      obtain ⟨c, hc1, hc2⟩ := hs.row x hx
      rw [hbc]
      exact ⟨c, by rw [hflat]; exact List.mem_append_left _ hc1, hc2⟩
    · intro j hj
      simp only at hj ⊢
      rw [hbi] at hj
      obtain ⟨x, c, hc1, hc2⟩ := hs.index j hj
      rw [hbc, hflat]
      exact ⟨x, c, by rw [List.getElem?_append_left (List.getElem?_eq_some_iff.1 hc1).1]; exact hc1, hc2⟩

theorem loopM_left [UniformCost C] (hp : e.parallel = false) :
    ∀ n t (s s' : St R C σ), LeftInv f s → loopM env e f ftol ρ noise n t s = .ok s' → LeftInv f s'
  | 0, _, _, _, hs, h => by cases h; exact hs
  | n + 1, t, s, s', hs, h => by
    unfold loopM at h
    rcases hst : stepM env e f ftol ρ noise t s with err | ⟨s1, _ | _⟩ <;> rw [hst] at h
    · cases h
    · exact loopM_left hp n (t + 1) s1 s' (stepM_left hp hs hst) h
    · cases h
      exact stepM_left hp hs hst

/-- **C73** Without `parallelize`, for every cost function: each individual that the object holds at the end
(its generation, its elite) is what some call of the cost function left; if `best_ind` is an individual then
some call left exactly this individual and returned `best_cost`, and if it is a position then the call at
that position returned `best_cost`. -/
theorem C73_left [UniformCost C] (hp : e.parallel = false) {res : EdaResult R C}
    {s : St R C σ} (h : minimizeM env e f ftol pm ρ = .ok (res, s)) :
    (∀ x ∈ s.gen.rows ++ s.elite.rows, ∃ k r, (f k r).2 = x) ∧
    (∀ x, res.bestInd = .row x → ∃ k r, (f k r).2 = x ∧ eq (f k r).1 res.bestCost = true) ∧
    (∀ i, res.bestInd = .index i → ∃ r, eq (f i r).1 res.bestCost = true) := by
  unfold minimizeM at h
  rcases h0 : startM env e f pm ρ with err | s0 <;> rw [h0] at h
  · cases h
  simp only at h
  rcases hn : e.mkNoise ρ.noise with err | noise <;> rw [hn] at h
  · cases h
  simp only at h
  rcases hL : loopM env e f ftol ρ noise (e.maxIter - 1).toNat 1 s0 with err | s1 <;> rw [hL] at h
  · cases h
  cases h
  have hI := loopM_left hp _ _ _ _ (startM_left hp h0) hL
  have key : ∀ x c, (x, c) ∈ s.log.flatten → ∃ k r, f k r = (c, x) := by
    intro x c hx
    obtain ⟨k, hk⟩ := List.getElem?_of_mem hx
    obtain ⟨r, hr⟩ := hI.calls k x c hk
    exact ⟨k, r, hr⟩
  refine ⟨?_, ?_, ?_⟩
  · intro x hx
    obtain ⟨c, hc⟩ := (List.mem_append.1 hx).elim (hI.gen x) (hI.elite x)
    obtain ⟨k, r, hr⟩ := key x c hc
    exact ⟨k, r, by rw [hr]⟩
  · intro x hx
    obtain ⟨c, hc, hb⟩ := hI.row x hx
    obtain ⟨k, r, hr⟩ := key x c hc
    exact ⟨k, r, by rw [hr], by rw [hr]; exact hb⟩
  · intro i hi
    obtain ⟨x, c, hc, hb⟩ := hI.index i hi
    obtain ⟨r, hr⟩ := hI.calls i x c hc
    exact ⟨r, by rw [hr]; exact hb⟩

/-- **C73** `init_data` is overwritten without `parallelize`, and untouched with it. -/
theorem C73_init_data {d : Gen R} (hd : d.rows ≠ []) :
    initDataAfter env false f d = { d with rows := d.rows.mapIdx (fun i r => (f i r).2) } ∧
    initDataAfter env true f d = d := by
  constructor
  · unfold initDataAfter checkGenerationM checkGeneration applyAlong
    have hl := callRows_length (fun k r => (f k r).1) 0 d.rows
    simp only [Bool.false_eq_true, if_false]
    rcases hc : callRows (fun k r => (f k r).1) 0 d.rows with _ | ⟨c0, cs⟩
    · rw [hc] at hl
      exact absurd (List.length_eq_zero_iff.1 hl.symm) hd
    · simp
  · unfold initDataAfter checkGenerationM
    simp only [if_true]
    rcases checkGeneration env true (fun k r => (f k r).1) 0 d.rows with err | ev <;> rfl

end

namespace Ex

/-- A cost function that doubles the individual in place and returns 7 minus its sum. -/
def doubling : ℕ → List ℚ → ℚ × List ℚ := repairing (fun r => r.map (fun x => 2 * x)) (fun r => 7 - r.sum)

theorem doubling_facts :
    (minimizeM env eda doubling 0 pm rand).toOption.map (fun x => (x.1.bestInd, x.1.bestCost)) =
      some (.row [2, 2], 3) ∧
    (minimizeM env parEda doubling 0 pm rand).toOption.map (fun x => (x.1.bestInd, x.1.bestCost)) =
      some (.row [1, 1], 3) := by
  decide +kernel

/-- The hypotheses of `C73_left` can be met, with a best individual (C73). -/
example : ∃ res s, minimizeM env eda doubling 0 pm rand = .ok (res, s) ∧ eda.parallel = false ∧
    res.bestInd = .row [2, 2] ∧ ∃ k r, (doubling k r).2 = [2, 2] ∧ PyCost.eq (doubling k r).1 res.bestCost = true := by
  obtain ⟨⟨res, s⟩, h, hf⟩ := facts_of doubling_facts.1
  simp only [Prod.mk.injEq] at hf
  have hp : eda.parallel = false := by decide +kernel
  exact ⟨res, s, h, hp, hf.1, (C73_left hp h).2.1 _ hf.1⟩

example : parEda.parallel = true := by decide +kernel

example := C73_init_data (env := env) (f := doubling) (d := { dt := .int, cols := 2, rows := [[0, 1]] }) (by simp)

end Ex

/-- **C73** The two ways of evaluating differ: with the same draws the same algorithm reports another best
individual. -/
theorem C73_modes_differ : ∃ (e e' : Eda (List ℚ) (UniBin ℚ) (Draws ℚ)) (b : UniBin ℚ)
    (f : ℕ → List ℚ → ℚ × List ℚ) (ρ : Rand (Draws ℚ)) (r r' : EdaResult (List ℚ) ℚ × St (List ℚ) ℚ (UniBin ℚ)),
    UMDAd id Ex.cfg = .ok (e, b) ∧
    UMDAd id { Ex.cfg with base := { Ex.cfg.base with parallel := true } } = .ok (e', b) ∧
    minimizeM Ex.env e f 0 b ρ = .ok r ∧ minimizeM Ex.env e' f 0 b ρ = .ok r' ∧
    r.1.bestInd ≠ r'.1.bestInd ∧ (∀ x, r'.1.bestInd = .row x → 7 - x.sum ≠ r'.1.bestCost) ∧
    ∀ x, r.1.bestInd = .row x → 7 - x.sum = r.1.bestCost := by
  obtain ⟨r, h, hf⟩ := Ex.facts_of Ex.doubling_facts.1
  obtain ⟨r', h', hf'⟩ := Ex.facts_of Ex.doubling_facts.2
  simp only [Prod.mk.injEq] at hf hf'
  have h1 : UMDAd id Ex.cfg = .ok (Ex.eda, Ex.pm) := by
    unfold Ex.eda Ex.pm
    obtain ⟨a, ha⟩ := Ex.ok_of_isSome Ex.cfg_ok
    simp only [ha, Except.toOption, Option.get_some]
  have h2 : UMDAd id Ex.parCfg = .ok (Ex.parEda, Ex.pm) := by
    unfold Ex.parEda Ex.pm
    obtain ⟨a, ha⟩ := Ex.ok_of_isSome Ex.parCfg_ok
    obtain ⟨a', ha'⟩ := Ex.ok_of_isSome Ex.cfg_ok
    have : a'.2 = a.2 := by
      rw [(UMDAd_ok (e := a.1) (b := a.2) ha).2.2, (UMDAd_ok (e := a'.1) (b := a'.2) ha').2.2]
      rfl
    simp only [ha, ha', Except.toOption, Option.get_some, this]
  refine ⟨Ex.eda, Ex.parEda, Ex.pm, Ex.doubling, Ex.rand, r, r', h1, h2, h, h', ?_, ?_, ?_⟩
  · rw [hf.1, hf'.1]; decide
  · intro x hx
    rw [hf'.1] at hx
    cases hx
    rw [hf'.2]
    norm_num
  · intro x hx
    rw [hf.1] at hx
    cases hx
    rw [hf.2]
    norm_num

end Verif
