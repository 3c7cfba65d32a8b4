/-
Lemmas about runs whose cost function may raise.
-/
import Verif.Model.Raise
import Verif.Lemmas.Parallel
import Verif.Lemmas.Core
import Verif.Spec.Raise

namespace Verif

open PyCost Spec

variable {R C σ Ω : Type} {f : ℕ → R → Except PyErr C} {g : ℕ → R → C}

theorem Returned.left {a b : List (ℕ × R)} (h : Returned f g (a ++ b)) : Returned f g a :=
  fun x hx => h x (List.mem_append_left _ hx)

theorem Returned.right {a b : List (ℕ × R)} (h : Returned f g (a ++ b)) : Returned f g b :=
  fun x hx => h x (List.mem_append_right _ hx)

theorem callRows_cons (g : ℕ → R → C) (k : ℕ) (r : R) (rs : List R) :
    callRows g k (r :: rs) = g k r :: callRows g (k + 1) rs := by
  have := callRows_append g k [r] rs
  simpa [callRows] using this

theorem callsR_returned : ∀ (k : ℕ) (rows : List R), Returned f g (callsR f k rows).1 →
    (callsR f k rows).2 = .ok (callRows g k rows) ∧
      (callsR f k rows).1.length = rows.length
  | k, [], _ => ⟨by simp [callsR, callRows], rfl⟩
  | k, r :: rs, h => by
    rcases hf : f k r with err | c
    · simp only [callsR, hf] at h
      have := h (k, r) (by simp)
      simp [hf] at this
    · rcases hr : callsR f (k + 1) rs with ⟨calls, err | cs⟩
      · simp only [callsR, hf, hr] at h
        have := (callsR_returned (k + 1) rs (by rw [hr]; exact fun x hx => h x (by simp [hx]))).1
        rw [hr] at this
        simp at this
      · simp only [callsR, hf, hr] at h ⊢
        have h1 := callsR_returned (k + 1) rs (by rw [hr]; exact fun x hx => h x (by simp [hx]))
        rw [hr] at h1
        simp only [Except.ok.injEq] at h1
        have h2 := h (k, r) (by simp)
        simp only [hf, Except.ok.injEq] at h2
        rw [callRows_cons, h1.1, ← h2]
        exact ⟨rfl, by simp [h1.2]⟩

/-- Either all calls returned, or the last one raised and the ones before it returned. -/
theorem callsR_cases (f : ℕ → R → Except PyErr C) : ∀ (k : ℕ) (rows : List R),
    ((∀ x ∈ (callsR f k rows).1, ∃ c, f x.1 x.2 = .ok c) ∧ ∃ cs, (callsR f k rows).2 = .ok cs) ∨
    ∃ pre x err, (callsR f k rows).1 = pre ++ [x] ∧ f x.1 x.2 = .error err ∧
      (∀ y ∈ pre, ∃ c, f y.1 y.2 = .ok c) ∧ (callsR f k rows).2 = .error err
  | k, [] => Or.inl ⟨by simp [callsR], [], rfl⟩
  | k, r :: rs => by
    rcases hf : f k r with err | c
    · exact Or.inr ⟨[], (k, r), err, by simp [callsR, hf], hf, by simp, by simp [callsR, hf]⟩
    · rcases callsR_cases f (k + 1) rs with ⟨h1, cs, h2⟩ | ⟨pre, x, err, h1, h2, h3, h4⟩
      · rcases hr : callsR f (k + 1) rs with ⟨calls, o⟩
        rw [hr] at h1 h2
        simp only at h1 h2
        subst h2
        refine Or.inl ⟨?_, c :: cs, by simp [callsR, hf, hr]⟩
        simp only [callsR, hf, hr]
        intro x hx
        rcases List.mem_cons.1 hx with hx | hx
        · rw [hx]; exact ⟨c, hf⟩
        · exact h1 x hx
      · rcases hr : callsR f (k + 1) rs with ⟨calls, o⟩
        rw [hr] at h1 h4
        simp only at h1 h4
        subst h4 h1
        refine Or.inr ⟨(k, r) :: pre, x, err, by simp [callsR, hf, hr], h2, ?_,
          by simp [callsR, hf, hr]⟩
        intro y hy
        rcases List.mem_cons.1 hy with hy | hy
        · rw [hy]; exact ⟨c, hf⟩
        · exact h3 y hy

/-- The calls are numbered from `k` on. -/
theorem callsR_number (f : ℕ → R → Except PyErr C) : ∀ (k : ℕ) (rows : List R) (i : ℕ) (x : ℕ × R),
    (callsR f k rows).1[i]? = some x → x.1 = k + i ∧ rows[i]? = some x.2
  | k, [], i, x, h => by simp [callsR] at h
  | k, r :: rs, i, x, h => by
    have h' : (callsR f k (r :: rs)).1 = [(k, r)] ∨
        (callsR f k (r :: rs)).1 = (k, r) :: (callsR f (k + 1) rs).1 := by
      rcases hf : f k r with err | c
      · simp [callsR, hf]
      · rcases hr : callsR f (k + 1) rs with ⟨calls, err | cs⟩ <;> simp [callsR, hf, hr]
    rcases i with _ | i
    · rcases h' with h' | h' <;> rw [h'] at h <;>
        simp only [List.getElem?_cons_zero, Option.some.injEq] at h <;> rw [← h] <;> simp
    · rcases h' with h' | h' <;> rw [h'] at h <;> simp only [List.getElem?_cons_succ] at h ⊢
      · simp at h
      · have := callsR_number f (k + 1) rs i x h
        exact ⟨by omega, this.2⟩

variable [PyCost C]

theorem applyAlongR_fst (f : ℕ → R → Except PyErr C) (k : ℕ) (rows : List R) :
    (applyAlongR f k rows).1 = (callsR f k rows).1 := by
  unfold applyAlongR
  split <;> rename_i h <;> rw [h]

theorem applyAlongR_returned (k : ℕ) (rows : List R) (h : Returned f g (applyAlongR f k rows).1) :
    (applyAlongR f k rows).2 = applyAlong g k rows := by
  rw [applyAlongR_fst] at h
  have h1 := (callsR_returned k rows h).1
  rcases hc : callsR f k rows with ⟨calls, o⟩
  rw [hc] at h1
  simp only at h1
  subst h1
  unfold applyAlong
  rcases hr : callRows g k rows with _ | ⟨c0, cs⟩
  · simp only [applyAlongR, hc, hr]
  · simp only [applyAlongR, hc, hr]

theorem applyAlongR_cases (f : ℕ → R → Except PyErr C) (k : ℕ) (rows : List R) :
    ((∀ x ∈ (applyAlongR f k rows).1, ∃ c, f x.1 x.2 = .ok c) ∧
      (∀ err, (applyAlongR f k rows).2 = .error err → err = .valueError ∧ rows = [])) ∨
    ∃ pre x err, (applyAlongR f k rows).1 = pre ++ [x] ∧ f x.1 x.2 = .error err ∧
      (∀ y ∈ pre, ∃ c, f y.1 y.2 = .ok c) ∧ (applyAlongR f k rows).2 = .error err := by
  rw [applyAlongR_fst]
  rcases callsR_cases f k rows with ⟨h1, cs, h2⟩ | ⟨pre, x, err, h1, h2, h3, h4⟩
  · refine Or.inl ⟨h1, ?_⟩
    intro err he
    rcases hc : callsR f k rows with ⟨calls, o⟩
    rw [hc] at h2
    simp only at h2
    subst h2
    rcases cs with _ | ⟨c0, cs⟩
    · simp only [applyAlongR, hc, Except.error.injEq] at he
      refine ⟨he.symm, ?_⟩
      rcases rows with _ | ⟨r, rs⟩
      · rfl
      · exfalso
        rcases hf : f k r with err | c
        · simp [callsR, hf] at hc
        · rcases hr : callsR f (k + 1) rs with ⟨a, b | b⟩ <;> simp [callsR, hf, hr] at hc
    · simp [applyAlongR, hc] at he
  · refine Or.inr ⟨pre, x, err, h1, h2, h3, ?_⟩
    rcases hc : callsR f k rows with ⟨calls, o⟩
    rw [hc] at h4
    simp only at h4
    subst h4
    simp only [applyAlongR, hc]

theorem errOf_eq_some {α : Type} {o : Except PyErr α} {err : PyErr} (h : errOf o = some err) :
    o = .error err := by
  cases o with
  | ok a => simp [errOf] at h
  | error e => simp only [errOf, Option.some.injEq] at h; rw [h]

/-- Shape of a parallel evaluation when all workers finish. -/
theorem parallelApplyR_shape {cpu : ℕ} {sched : List ℕ} (f : ℕ → R → Except PyErr C) (k : ℕ)
    (rows : List R) (hc : 0 < cpu) (hs : ∀ i < cpu, i ∈ sched) :
    ∃ res : ℕ × List R → List (ℕ × R) × Except PyErr (Evaluated R C),
      (∀ ch, res ch = applyAlongR f (k + ch.1) ch.2) ∧
      (parallelApplyR cpu sched f k rows).1 =
        ((arraySplit rows cpu).map (fun ch => (res ch).1)).flatten ∧
      ((∃ err, ∃ ch ∈ arraySplit rows cpu, (res ch).2 = .error err ∧
          (parallelApplyR cpu sched f k rows).2 = .error err) ∨
        (∀ ch ∈ arraySplit rows cpu, ∃ ev, (res ch).2 = .ok ev) ∧
          (parallelApplyR cpu sched f k rows).2 =
            match ((arraySplit rows cpu).map (fun ch => (res ch).2)).mapM id with
            | .error e => .error e
            | .ok es => .ok { calls := (es.map Evaluated.calls).flatten
                              stored := (es.map Evaluated.stored).flatten }) := by
  refine ⟨fun ch => applyAlongR f (k + ch.1) ch.2, fun _ => rfl, ?_⟩
  have hlen : (arraySplit rows cpu).length = cpu := by
    rw [arraySplit, cut_length, splitSizes_length _ _ hc]
  have hp := poolMap_eq sched (fun ch : ℕ × List R => applyAlongR f (k + ch.1) ch.2)
    (arraySplit rows cpu) (by rw [hlen]; exact hs)
  unfold parallelApplyR
  rw [if_neg (by omega), hp]
  simp only [List.map_map, Function.comp_def]
  rcases hfs : sched.findSome? (fun i => ((arraySplit rows cpu).map
      (fun ch => applyAlongR f (k + ch.1) ch.2))[i]?.bind (fun r => errOf r.2)) with _ | err
  · rcases hm : ((arraySplit rows cpu).map (fun x => (applyAlongR f (k + x.1) x.2).2)).mapM id with
      err | es <;> simp only [hfs, hm] <;> refine ⟨trivial, Or.inr ⟨?_, trivial⟩⟩
    all_goals
      intro ch hch
      obtain ⟨i, hi, hie⟩ := List.mem_iff_getElem.1 hch
      have := List.findSome?_eq_none_iff.1 hfs i (hs i (by omega))
      rw [List.getElem?_map, List.getElem?_eq_getElem hi, hie] at this
      simp only [Option.map_some, Option.bind_some] at this
      rcases ho : (applyAlongR f (k + ch.1) ch.2).2 with err | ev
      · rw [ho] at this; simp [errOf] at this
      · exact ⟨ev, rfl⟩
  · simp only [hfs]
    refine ⟨trivial, Or.inl ⟨err, ?_⟩⟩
    obtain ⟨i, hi, hie⟩ := List.exists_of_findSome?_eq_some hfs
    rw [List.getElem?_map] at hie
    rcases hch : (arraySplit rows cpu)[i]? with _ | ch
    · rw [hch] at hie; simp at hie
    · rw [hch] at hie
      simp only [Option.map_some, Option.bind_some] at hie
      exact ⟨ch, List.mem_of_getElem? hch, errOf_eq_some hie, rfl⟩

theorem applyAlong_error {g : ℕ → R → C} {k : ℕ} {rows : List R} {err : PyErr}
    (h : applyAlong g k rows = .error err) : err = .valueError := by
  by_cases hr : rows = []
  · subst hr; rw [applyAlong_nil] at h; simpa using h.symm
  · rw [applyAlong_ok _ _ _ hr] at h; simp at h

theorem parallelApplyR_returned {cpu : ℕ} {sched : List ℕ} (k : ℕ) (rows : List R) (hc : 0 < cpu)
    (hs : ∀ i < cpu, i ∈ sched) (h : Returned f g (parallelApplyR cpu sched f k rows).1) :
    (parallelApplyR cpu sched f k rows).2 = parallelApply cpu sched g k rows := by
  obtain ⟨res, h0, h1, h2⟩ := parallelApplyR_shape f k rows hc hs
  have hlen : (arraySplit rows cpu).length = cpu := by
    rw [arraySplit, cut_length, splitSizes_length _ _ hc]
  have hp := poolMap_eq sched (fun ch : ℕ × List R => applyAlong g (k + ch.1) ch.2)
    (arraySplit rows cpu) (by rw [hlen]; exact hs)
  have hch : ∀ ch ∈ arraySplit rows cpu, (res ch).2 = applyAlong g (k + ch.1) ch.2 := by
    intro ch hch
    rw [h0]
    refine applyAlongR_returned _ _ (fun x hx => h x ?_)
    rw [h1]
    exact List.mem_flatten.2 ⟨_, List.mem_map.2 ⟨ch, hch, rfl⟩, by rw [h0]; exact hx⟩
  unfold parallelApply
  rw [if_neg (by omega), hp]
  simp only
  rcases h2 with ⟨err, ch, hm, he, h2⟩ | ⟨_, h2⟩
  · rw [hch ch hm] at he
    have hv := applyAlong_error he
    subst hv
    rw [h2, mapM_error _ .valueError]
    · intro x hx e' he'
      obtain ⟨ch', _, hx'⟩ := List.mem_map.1 hx
      rw [he'] at hx'
      exact applyAlong_error hx'
    · exact List.mem_map.2 ⟨ch, hm, he⟩
  · rw [h2, List.map_congr_left hch]; rfl

theorem parallelApplyR_raised {cpu : ℕ} {sched : List ℕ} (k : ℕ) (rows : List R) (hc : 0 < cpu)
    (hs : ∀ i < cpu, i ∈ sched) {e0 : PyErr} (h : Raised f e0 (parallelApplyR cpu sched f k rows).1) :
    ∃ err, (parallelApplyR cpu sched f k rows).2 = .error err ∧
      (Raised f err (parallelApplyR cpu sched f k rows).1 ∨
        err = .valueError ∧ rows.length < cpu) := by
  obtain ⟨res, h0, h1, h2⟩ := parallelApplyR_shape f k rows hc hs
  obtain ⟨x, hx, hfx⟩ := h
  rw [h1] at hx
  obtain ⟨l, hl, hxl⟩ := List.mem_flatten.1 hx
  obtain ⟨ch, hch, hle⟩ := List.mem_map.1 hl
  rw [← hle, h0] at hxl
  rcases h2 with ⟨err, ch', hm, he, h2⟩ | ⟨hok, _⟩
  · refine ⟨err, h2, ?_⟩
    rw [h0] at he
    rcases applyAlongR_cases f (k + ch'.1) ch'.2 with ⟨_, h4⟩ | ⟨pre, y, err', h3, h4, _, h5⟩
    · right
      obtain ⟨h5, h6⟩ := h4 err he
      refine ⟨h5, ?_⟩
      by_contra hcon
      have := cut_chunk_length 0 (splitSizes rows.length cpu) rows (splitSizes_sum _ _ hc)
      have hpos := splitSizes_pos rows.length cpu hc (by omega) ch'.2.length (by
        rw [← this]
        exact List.mem_map.2 ⟨ch', hm, rfl⟩)
      rw [h6] at hpos
      simp at hpos
    · left
      rw [h5] at he
      simp only [Except.error.injEq] at he
      subst he
      refine ⟨y, ?_, h4⟩
      rw [h1]
      exact List.mem_flatten.2 ⟨_, List.mem_map.2 ⟨ch', hm, rfl⟩, by rw [h0, h3]; simp⟩
  · exfalso
    obtain ⟨ev, hev⟩ := hok ch hch
    rw [h0] at hev
    rcases applyAlongR_cases f (k + ch.1) ch.2 with ⟨h3, _⟩ | ⟨pre, y, err', _, _, _, h5⟩
    · obtain ⟨c, hcx⟩ := h3 x hxl
      rw [hfx] at hcx; simp at hcx
    · rw [h5] at hev; simp at hev

variable {env : Env C} {e : Eda R σ Ω} {ftol : C} {pm : σ} {ρ : Rand Ω}

theorem checkR_returned (hv : env.Valid) (par : Bool) (k : ℕ) (rows : List R)
    (h : Returned f g (checkGenerationR env par f k rows).1) :
    (checkGenerationR env par f k rows).2 = checkGeneration env par g k rows := by
  cases par with
  | true => exact parallelApplyR_returned k rows hv.cpu (hv.sched k) h
  | false => exact applyAlongR_returned k rows h

theorem checkR_raised (hv : env.Valid) (par : Bool) (k : ℕ) (rows : List R) {e0 : PyErr}
    (h : Raised f e0 (checkGenerationR env par f k rows).1) :
    ∃ err, (checkGenerationR env par f k rows).2 = .error err ∧
      (Raised f err (checkGenerationR env par f k rows).1 ∨
        par = true ∧ err = .valueError ∧ rows.length < env.cpu) := by
  cases par with
  | true =>
    obtain ⟨err, h1, h2⟩ := parallelApplyR_raised k rows hv.cpu (hv.sched k) h
    refine ⟨err, h1, h2.imp id fun h => ⟨rfl, h⟩⟩
  | false =>
    obtain ⟨x, hx, hfx⟩ := h
    rcases applyAlongR_cases f k rows with ⟨h3, _⟩ | ⟨pre, y, err', h4, h6, _, h5⟩
    · obtain ⟨c, hcx⟩ := h3 x hx
      rw [hfx] at hcx; simp at hcx
    · exact ⟨err', h5, Or.inl ⟨y, by
        show y ∈ (applyAlongR f k rows).1
        rw [h4]; simp, h6⟩⟩

/-- What the start or one pass of the loop does: it evaluates no generation, or one; what happens
when that evaluation returns, and when a call raises. -/
structure Phase (f : ℕ → R → Except PyErr C) (par : Bool) {α : Type}
    (o : List (List (ℕ × R)) × Except PyErr α) (total : (ℕ → R → C) → Except PyErr α) : Prop where
  one : o.1.length ≤ 1
  returned : ∀ g, (∀ b ∈ o.1, Returned f g b) → o.2 = total g
  raised : ∀ b ∈ o.1, ∀ e0, Raised f e0 b → ∃ err, o.2 = .error err ∧
    (Raised f err b ∨ par = true ∧ err = .valueError)

theorem startR_phase (hv : env.Valid) :
    Phase f e.parallel (startR env e f pm ρ) (fun g => start env e g pm ρ) := by
  rcases hi : e.initGen ρ.init with err | gen
  · refine ⟨?_, ?_, ?_⟩ <;> simp [startR, start, hi]
  · rcases hc : checkGenerationR env e.parallel f 0 gen.rows with ⟨asked, o⟩
    have h1 : (startR env e f pm ρ).1 = [asked] := by
      rcases o with err | ⟨calls, evals⟩ <;> simp only [startR, hi, hc]
    refine ⟨by rw [h1]; simp, ?_, ?_⟩
    · intro g hg
      have := checkR_returned (g := g) hv e.parallel 0 gen.rows (by
        rw [hc]; exact hg asked (by rw [h1]; simp))
      rw [hc] at this
      simp only at this
      subst this
      rcases ho : checkGeneration env e.parallel g 0 gen.rows with err | ⟨calls, evals⟩
      · rw [ho] at hc
        simp only [startR, start, hi, hc, ho]
      · rw [ho] at hc
        simp only [startR, start, hi, hc, ho]
        rfl
    · intro b hb e0 hr
      rw [h1] at hb
      have hb' : b = asked := by simpa using hb
      subst hb'
      obtain ⟨err, h2, h3⟩ := checkR_raised hv e.parallel 0 gen.rows (e0 := e0) (by rw [hc]; exact hr)
      rw [hc] at h2 h3
      simp only at h2 h3
      subst h2
      exact ⟨err, by simp only [startR, hi, hc], h3.imp id fun h => ⟨h.1, h.2.1⟩⟩

theorem stepR_phase (hv : env.Valid) (noise : Gen R → Except PyErr (Gen R)) (t : ℕ)
    (s : St R C σ) : Phase f e.parallel (stepR env e f ftol ρ noise t s)
      (fun g => step env e g ftol ρ noise t s) := by
  rcases ht : truncation env e s with err | s1
  · refine ⟨?_, ?_, ?_⟩ <;> simp [stepR, step, ht]
  rcases hn : noise s1.gen with err | noisy
  · refine ⟨?_, ?_, ?_⟩ <;> simp [stepR, step, ht, hn]
  rcases hu : e.updatePm s1.pm noisy s1.elite (ρ.learn t) with err | pm'
  · refine ⟨?_, ?_, ?_⟩ <;> simp [stepR, step, ht, hn, hu]
  rcases hi : e.sample pm' (ρ.sample t) with err | gen
  · refine ⟨?_, ?_, ?_⟩ <;> simp [stepR, step, ht, hn, hu, hi]
  · rcases hc : checkGenerationR env e.parallel f s1.log.flatten.length gen.rows with ⟨asked, o⟩
    have h1 : (stepR env e f ftol ρ noise t s).1 = [asked] := by
      rcases o with err | ⟨calls, evals⟩ <;> simp only [stepR, ht, hn, hu, hi, hc]
    refine ⟨by rw [h1]; simp, ?_, ?_⟩
    · intro g hg
      have := checkR_returned (g := g) hv e.parallel s1.log.flatten.length gen.rows (by
        rw [hc]; exact hg asked (by rw [h1]; simp))
      rw [hc] at this
      simp only at this
      subst this
      rcases ho : checkGeneration env e.parallel g s1.log.flatten.length gen.rows with
        err | ⟨calls, evals⟩
      · rw [ho] at hc
        simp only [stepR, step, ht, hn, hu, hi, hc, ho]
      · rw [ho] at hc
        simp only [stepR, step, ht, hn, hu, hi, hc, ho]
        rfl
    · intro b hb e0 hr
      rw [h1] at hb
      have hb' : b = asked := by simpa using hb
      subst hb'
      obtain ⟨err, h2, h3⟩ := checkR_raised hv e.parallel s1.log.flatten.length gen.rows (e0 := e0)
        (by rw [hc]; exact hr)
      rw [hc] at h2 h3
      simp only at h2 h3
      subst h2
      exact ⟨err, by simp only [stepR, ht, hn, hu, hi, hc], h3.imp id fun h => ⟨h.1, h.2.1⟩⟩

/-! ### Sequential evaluation -/

/-- In a sequential evaluation that returns, the recorded calls are the calls made. -/
theorem applyAlongR_length (f : ℕ → R → Except PyErr C) (k : ℕ) (rows : List R)
    {ev : Evaluated R C} (h : (applyAlongR f k rows).2 = .ok ev) :
    ev.calls.length = (applyAlongR f k rows).1.length := by
  have hlen : ∀ (k : ℕ) (rows : List R) (cs : List C), (callsR f k rows).2 = .ok cs →
      cs.length = rows.length ∧ (callsR f k rows).1.length = rows.length := by
    intro k rows
    induction rows generalizing k with
    | nil => intro cs h; simp only [callsR, Except.ok.injEq] at h; subst h; exact ⟨rfl, rfl⟩
    | cons r rs ih =>
      intro cs h
      rcases hf : f k r with err | c
      · simp [callsR, hf] at h
      · rcases hr : callsR f (k + 1) rs with ⟨a, err | cs'⟩
        · simp [callsR, hf, hr] at h
        · simp only [callsR, hf, hr, Except.ok.injEq] at h ⊢
          have := ih (k + 1) cs' (by rw [hr])
          rw [hr] at this
          subst h
          simp [this.1, this.2]
  rw [applyAlongR_fst]
  rcases hc : callsR f k rows with ⟨calls, err | _ | ⟨c0, cs⟩⟩
  · simp [applyAlongR, hc] at h
  · simp [applyAlongR, hc] at h
  · simp only [applyAlongR, hc, Except.ok.injEq] at h
    have := hlen k rows (c0 :: cs) (by rw [hc])
    rw [hc] at this
    subst h
    rw [List.length_zip, this.1, this.2, Nat.min_self]

theorem truncation_log {s s1 : St R C σ} (h : truncation env e s = .ok s1) : s1.log = s.log := by
  unfold truncation at h
  split at h
  · simp at h
  · simp only [Except.ok.injEq] at h
    subst h
    rfl

/-- What a phase of a sequential run does, in terms of single calls; `k` calls were made before. -/
structure SeqPhase (f : ℕ → R → Except PyErr C) (k : ℕ) {α : Type}
    (o : List (List (ℕ × R)) × Except PyErr α) (after : α → ℕ) : Prop where
  number : ∀ i x, o.1.flatten[i]? = some x → x.1 = k + i
  after : ∀ a, o.2 = .ok a → after a = k + o.1.flatten.length
  stop : (∀ x ∈ o.1.flatten, ∃ c, f x.1 x.2 = .ok c) ∨
    ∃ pre x err, o.1.flatten = pre ++ [x] ∧ f x.1 x.2 = .error err ∧
      (∀ y ∈ pre, ∃ c, f y.1 y.2 = .ok c) ∧ o.2 = .error err

omit [PyCost C] in
theorem seqPhase_none (f : ℕ → R → Except PyErr C) (k : ℕ) {α : Type} {err : PyErr}
    (after : α → ℕ) : SeqPhase f k (([] : List (List (ℕ × R))), .error err) after :=
  ⟨by simp, by simp, Or.inl (by simp)⟩

theorem applyAlongR_number (f : ℕ → R → Except PyErr C) (k : ℕ) (rows : List R) (i : ℕ) (x : ℕ × R)
    (h : (applyAlongR f k rows).1[i]? = some x) : x.1 = k + i := by
  rw [applyAlongR_fst] at h
  exact (callsR_number f k rows i x h).1

theorem startR_seq (hp : e.parallel = false) :
    SeqPhase f 0 (startR env e f pm ρ) (fun s => s.log.flatten.length) := by
  rcases hi : e.initGen ρ.init with err | gen
  · have : startR env e f pm ρ = ([], .error err) := by simp only [startR, hi]
    rw [this]
    exact seqPhase_none _ _ _
  · have hn := applyAlongR_number f 0 gen.rows
    have hl := fun ev => applyAlongR_length f 0 gen.rows (ev := ev)
    have hcs := applyAlongR_cases f 0 gen.rows
    rcases hc : applyAlongR f 0 gen.rows with ⟨asked, o⟩
    rw [hc] at hn hl hcs
    simp only at hn hl hcs
    have hck : checkGenerationR env e.parallel f 0 gen.rows = (asked, o) := by
      rw [hp]; exact hc
    have h1 : (startR env e f pm ρ).1 = [asked] := by
      rcases o with err | ⟨calls, evals⟩ <;> simp only [startR, hi, hck]
    refine ⟨?_, ?_, ?_⟩
    · rw [h1]; simpa using hn
    · intro s hs
      rw [h1]
      rcases o with err | ⟨calls, evals⟩
      · simp [startR, hi, hck] at hs
      · simp only [startR, hi, hck] at hs
        have := hl _ rfl
        split at hs
        · split at hs
          · simp at hs
          · split at hs
            · simp at hs
            · simp only [Except.ok.injEq] at hs
              subst hs
              simpa using this
        · simp at hs
    · rw [h1]
      rcases hcs with ⟨h3, _⟩ | ⟨pre, x, err, h3, h4, h5, h6⟩
      · exact Or.inl (by simpa using h3)
      · refine Or.inr ⟨pre, x, err, by simpa using h3, h4, h5, ?_⟩
        subst h6
        simp only [startR, hi, hck]

theorem stepR_seq (hp : e.parallel = false) (noise : Gen R → Except PyErr (Gen R)) (t : ℕ)
    (s : St R C σ) : SeqPhase f s.log.flatten.length (stepR env e f ftol ρ noise t s)
      (fun r => r.1.log.flatten.length) := by
  rcases ht : truncation env e s with err | s1
  · have : stepR env e f ftol ρ noise t s = ([], .error err) := by simp only [stepR, ht]
    rw [this]
    exact seqPhase_none _ _ _
  rw [← truncation_log ht]
  rcases hno : noise s1.gen with err | noisy
  · have : stepR env e f ftol ρ noise t s = ([], .error err) := by simp only [stepR, ht, hno]
    rw [this]
    exact seqPhase_none _ _ _
  rcases hu : e.updatePm s1.pm noisy s1.elite (ρ.learn t) with err | pm'
  · have : stepR env e f ftol ρ noise t s = ([], .error err) := by simp only [stepR, ht, hno, hu]
    rw [this]
    exact seqPhase_none _ _ _
  rcases hi : e.sample pm' (ρ.sample t) with err | gen
  · have : stepR env e f ftol ρ noise t s = ([], .error err) := by
      simp only [stepR, ht, hno, hu, hi]
    rw [this]
    exact seqPhase_none _ _ _
  · have hn := applyAlongR_number f s1.log.flatten.length gen.rows
    have hl := fun ev => applyAlongR_length f s1.log.flatten.length gen.rows (ev := ev)
    have hcs := applyAlongR_cases f s1.log.flatten.length gen.rows
    rcases hc : applyAlongR f s1.log.flatten.length gen.rows with ⟨asked, o⟩
    rw [hc] at hn hl hcs
    simp only at hn hl hcs
    have hck : checkGenerationR env e.parallel f s1.log.flatten.length gen.rows = (asked, o) := by
      rw [hp]; exact hc
    have h1 : (stepR env e f ftol ρ noise t s).1 = [asked] := by
      rcases o with err | ⟨calls, evals⟩ <;> simp only [stepR, ht, hno, hu, hi, hck]
    refine ⟨?_, ?_, ?_⟩
    · rw [h1]; simpa using hn
    · intro r hs
      rw [h1]
      rcases o with err | ⟨calls, evals⟩
      · simp only [stepR, ht, hno, hu, hi, hck, reduceCtorEq] at hs
      · simp only [stepR, ht, hno, hu, hi, hck] at hs
        have := hl _ rfl
        simp only at this
        split at hs
        · simp at hs
        · split at hs
          · simp at hs
          · split at hs
            · simp at hs
            · split at hs <;> simp only [Except.ok.injEq] at hs <;> subst hs <;>
                simp [List.flatten_append, this]
    · rw [h1]
      rcases hcs with ⟨h3, _⟩ | ⟨pre, x, err, h3, h4, h5, h6⟩
      · exact Or.inl (by simpa using h3)
      · refine Or.inr ⟨pre, x, err, by simpa using h3, h4, h5, ?_⟩
        subst h6
        simp only [stepR, ht, hno, hu, hi, hck]

/-! ### The loop -/

theorem loopR_returned (hv : env.Valid) (noise : Gen R → Except PyErr (Gen R)) :
    ∀ (n t : ℕ) (s : St R C σ),
      (∀ b ∈ (loopR env e f ftol ρ noise n t s).1, Returned f g b) →
      (loopR env e f ftol ρ noise n t s).2 = loop env e g ftol ρ noise n t s := by
  intro n
  induction n with
  | zero => intro t s _; rfl
  | succ n ih =>
    intro t s h
    have hph := stepR_phase (f := f) (e := e) (ftol := ftol) (ρ := ρ) hv noise t s
    rcases hs : stepR env e f ftol ρ noise t s with ⟨asked, o⟩
    rw [hs] at hph
    have hret : (∀ b ∈ asked, Returned f g b) → o = step env e g ftol ρ noise t s :=
      hph.returned g
    rcases o with err | ⟨s', _ | _⟩
    · simp only [loopR, hs] at h ⊢
      simp only [loop, ← hret h]
    · simp only [loopR, hs] at h ⊢
      have := hret fun b hb => h b (List.mem_append_left _ hb)
      simp only [loop, ← this]
      exact ih _ _ fun b hb => h b (List.mem_append_right _ hb)
    · simp only [loopR, hs] at h ⊢
      simp only [loop, ← hret h]

theorem loopR_raised (hv : env.Valid) (noise : Gen R → Except PyErr (Gen R)) :
    ∀ (n t : ℕ) (s : St R C σ) (i : ℕ) (b : List (ℕ × R)) (e0 : PyErr),
      (loopR env e f ftol ρ noise n t s).1[i]? = some b → Raised f e0 b →
      i + 1 = (loopR env e f ftol ρ noise n t s).1.length ∧
        ∃ err, (loopR env e f ftol ρ noise n t s).2 = .error err ∧
          (Raised f err b ∨ e.parallel = true ∧ err = .valueError) := by
  intro n
  induction n with
  | zero => intro t s i b e0 h; simp [loopR] at h
  | succ n ih =>
    intro t s i b e0 h hr
    have hph := stepR_phase (f := f) (e := e) (ftol := ftol) (ρ := ρ) hv noise t s
    rcases hs : stepR env e f ftol ρ noise t s with ⟨asked, o⟩
    rw [hs] at hph
    have h1 : asked.length ≤ 1 := hph.one
    have h2 : ∀ b ∈ asked, ∀ e0, Raised f e0 b → ∃ err, o = .error err ∧
      (Raised f err b ∨ e.parallel = true ∧ err = .valueError) := hph.raised
    rcases o with err | ⟨s', _ | _⟩
    · simp only [loopR, hs] at h ⊢
      have hi : i < asked.length := (List.getElem?_eq_some_iff.1 h).1
      obtain ⟨err', h3, h4⟩ := h2 b (List.mem_of_getElem? h) e0 hr
      simp only [Except.error.injEq] at h3
      exact ⟨by omega, err', by rw [h3], h4⟩
    · simp only [loopR, hs] at h ⊢
      rcases Nat.lt_or_ge i asked.length with hi | hi
      · rw [List.getElem?_append_left hi] at h
        obtain ⟨err, he, _⟩ := h2 b (List.mem_of_getElem? h) e0 hr
        simp at he
      · rw [List.getElem?_append_right hi] at h
        obtain ⟨h3, h4⟩ := ih _ _ _ b e0 h hr
        refine ⟨?_, h4⟩
        rw [List.length_append]
        omega
    · simp only [loopR, hs] at h
      obtain ⟨err, he, _⟩ := h2 b (List.mem_of_getElem? h) e0 hr
      simp at he

omit [PyCost C] in
theorem seqPhase_append {α β : Type} {k : ℕ} {a b : List (List (ℕ × R))} {x : α}
    {o : Except PyErr β} {after : α → ℕ} {after' : β → ℕ}
    (h1 : SeqPhase f k (a, .ok x) after) (h2 : SeqPhase f (after x) (b, o) after') :
    SeqPhase f k (a ++ b, o) after' := by
  have hx := h1.after x rfl
  simp only at hx
  have ha : ∀ y ∈ a.flatten, ∃ c, f y.1 y.2 = .ok c := by
    rcases h1.stop with h | ⟨_, _, _, _, _, _, h⟩
    · exact h
    · simp at h
  refine ⟨?_, ?_, ?_⟩
  · intro i y hy
    simp only [List.flatten_append] at hy
    rcases Nat.lt_or_ge i a.flatten.length with hi | hi
    · rw [List.getElem?_append_left hi] at hy
      exact h1.number i y hy
    · rw [List.getElem?_append_right hi] at hy
      have := h2.number _ y hy
      omega
  · intro y hy
    have := h2.after y hy
    simp only [List.flatten_append, List.length_append]
    simp only at this
    omega
  · simp only [List.flatten_append]
    rcases h2.stop with h | ⟨pre, y, err, h3, h4, h5, h6⟩
    · left
      intro y hy
      rcases List.mem_append.1 hy with hy | hy
      · exact ha y hy
      · exact h y hy
    · right
      simp only at h3 h6
      refine ⟨a.flatten ++ pre, y, err, by rw [h3, List.append_assoc], h4, ?_, h6⟩
      intro z hz
      rcases List.mem_append.1 hz with hz | hz
      · exact ha z hz
      · exact h5 z hz

omit [PyCost C] in
theorem SeqPhase.mapOk {α β : Type} {k : ℕ} {a : List (List (ℕ × R))} {o : Except PyErr α}
    {o' : Except PyErr β} {after : α → ℕ} {after' : β → ℕ} (h : SeqPhase f k (a, o) after)
    (h1 : ∀ err, o = .error err → o' = .error err)
    (h2 : ∀ y, o' = .ok y → ∃ x, o = .ok x ∧ after' y = after x) : SeqPhase f k (a, o') after' := by
  refine ⟨h.number, ?_, ?_⟩
  · intro y hy
    obtain ⟨x, hx, hxy⟩ := h2 y hy
    rw [hxy]
    exact h.after x hx
  · rcases h.stop with h3 | ⟨pre, y, err, h3, h4, h5, h6⟩
    · exact Or.inl h3
    · exact Or.inr ⟨pre, y, err, h3, h4, h5, h1 err h6⟩

theorem loopR_seq (hp : e.parallel = false) (noise : Gen R → Except PyErr (Gen R)) :
    ∀ (n t : ℕ) (s : St R C σ), SeqPhase f s.log.flatten.length
      (loopR env e f ftol ρ noise n t s) (fun s => s.log.flatten.length) := by
  intro n
  induction n with
  | zero =>
    intro t s
    refine ⟨by simp [loopR], ?_, Or.inl (by simp [loopR])⟩
    intro a ha
    simp only [loopR, Except.ok.injEq] at ha
    subst ha
    simp [loopR]
  | succ n ih =>
    intro t s
    have hph := stepR_seq (f := f) (env := env) (ftol := ftol) (ρ := ρ) hp noise t s
    rcases hs : stepR env e f ftol ρ noise t s with ⟨asked, o⟩
    rw [hs] at hph
    rcases o with err | ⟨s', _ | _⟩
    · simp only [loopR, hs]
      exact hph.mapOk (by simp) (by simp)
    · simp only [loopR, hs]
      exact seqPhase_append hph (ih (t + 1) s')
    · simp only [loopR, hs]
      exact hph.mapOk (by simp) (by simp)

end Verif
