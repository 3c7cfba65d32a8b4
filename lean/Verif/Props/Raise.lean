/-
Runs whose cost function may raise (eda.py:118-122, 148-222): C66.
-/
import Verif.Lemmas.Raise
import Verif.Model.Examples

namespace Verif

open PyCost Spec

variable {R C σ Ω : Type} [PyCost C]
variable {env : Env C} {e : Eda R σ Ω} {f : ℕ → R → Except PyErr C} {g : ℕ → R → C} {ftol : C}
variable {pm : σ} {ρ : Rand Ω}

/-- **C66** When all calls made by a run return, the run is the one with a cost function that
always returns: same result, same state, same exception. -/
theorem C66_returned (hv : env.Valid)
    (h : ∀ b ∈ (minimizeR env e f ftol pm ρ).1, Returned f g b) :
    (minimizeR env e f ftol pm ρ).2 = minimize env e g ftol pm ρ := by
  have hst := (startR_phase (f := f) (e := e) (pm := pm) (ρ := ρ) hv).returned g
  rcases hs : startR env e f pm ρ with ⟨asked, err | s0⟩
  · rw [hs] at hst
    simp only [minimizeR, hs] at h ⊢
    have h0 := hst h
    simp only at h0
    simp only [minimize, ← h0]
  rw [hs] at hst
  rcases hn : e.mkNoise ρ.noise with err | noise
  · simp only [minimizeR, hs, hn] at h ⊢
    have h0 := hst h
    simp only at h0
    simp only [minimize, ← h0, hn]
  · have hlo := loopR_returned (f := f) (g := g) (e := e) (ftol := ftol) (ρ := ρ) hv noise
      (e.maxIter - 1).toNat 1 s0
    rcases hL : loopR env e f ftol ρ noise (e.maxIter - 1).toNat 1 s0 with ⟨more, err | s⟩ <;>
      rw [hL] at hlo <;> simp only [minimizeR, hs, hn, hL] at h ⊢ <;>
      have h0 := hst (fun b hb => h b (List.mem_append_left _ hb)) <;>
      have h1 := hlo (fun b hb => h b (List.mem_append_right _ hb)) <;>
      simp only at h0 h1 <;> simp only [minimize, ← h0, hn, ← h1]

/-- **C66** An exception of the cost function ends the run: no later generation is evaluated, and
`minimize` raises an exception that the cost function raised in this generation.  (With
`parallelize` it can instead be the `ValueError` of a worker that got no individual.) -/
theorem C66_raised (hv : env.Valid) {i : ℕ} {b : List (ℕ × R)} {e0 : PyErr}
    (hb : (minimizeR env e f ftol pm ρ).1[i]? = some b) (hr : Raised f e0 b) :
    i + 1 = (minimizeR env e f ftol pm ρ).1.length ∧
      ∃ err, (minimizeR env e f ftol pm ρ).2 = .error err ∧
        (Raised f err b ∨ e.parallel = true ∧ err = .valueError) := by
  have hst := startR_phase (f := f) (e := e) (pm := pm) (ρ := ρ) hv
  rcases hs : startR env e f pm ρ with ⟨asked, o⟩
  rw [hs] at hst
  have h1 : asked.length ≤ 1 := hst.one
  have h2 : ∀ b ∈ asked, ∀ e0, Raised f e0 b → ∃ err, o = .error err ∧
    (Raised f err b ∨ e.parallel = true ∧ err = .valueError) := hst.raised
  rcases o with err | s0
  · simp only [minimizeR, hs] at hb ⊢
    obtain ⟨err', h3, h4⟩ := h2 b (List.mem_of_getElem? hb) e0 hr
    simp only [Except.error.injEq] at h3
    have := (List.getElem?_eq_some_iff.1 hb).1
    exact ⟨by omega, err', by rw [h3], h4⟩
  rcases hn : e.mkNoise ρ.noise with err | noise
  · simp only [minimizeR, hs, hn] at hb
    obtain ⟨err', h3, h4⟩ := h2 b (List.mem_of_getElem? hb) e0 hr
    simp at h3
  · have hlo := loopR_raised (f := f) (e := e) (ftol := ftol) (ρ := ρ) hv noise
      (e.maxIter - 1).toNat 1 s0
    rcases hL : loopR env e f ftol ρ noise (e.maxIter - 1).toNat 1 s0 with ⟨more, o⟩
    rw [hL] at hlo
    have hb' : (asked ++ more)[i]? = some b := by
      rcases o with err | s <;> simpa only [minimizeR, hs, hn, hL] using hb
    rcases Nat.lt_or_ge i asked.length with hi | hi
    · rw [List.getElem?_append_left hi] at hb'
      obtain ⟨err', h3, h4⟩ := h2 b (List.mem_of_getElem? hb') e0 hr
      simp at h3
    · rw [List.getElem?_append_right hi] at hb'
      obtain ⟨h3, err, h4, h5⟩ := hlo _ b e0 hb' hr
      simp only at h3 h4
      subst h4
      simp only [minimizeR, hs, hn, hL, List.length_append]
      exact ⟨by omega, err, rfl, h5⟩

/-- **C66** Without `parallelize`: the calls are numbered in the order in which they are made, and
if one of them raises it is the last one, and `minimize` raises the same exception. -/
theorem C66_sequential (hp : e.parallel = false) :
    (∀ (i : ℕ) (x : ℕ × R), (minimizeR env e f ftol pm ρ).1.flatten[i]? = some x → x.1 = i) ∧
    ((∀ x ∈ (minimizeR env e f ftol pm ρ).1.flatten, ∃ c, f x.1 x.2 = .ok c) ∨
      ∃ pre x err, (minimizeR env e f ftol pm ρ).1.flatten = pre ++ [x] ∧
        f x.1 x.2 = .error err ∧ (∀ y ∈ pre, ∃ c, f y.1 y.2 = .ok c) ∧
        (minimizeR env e f ftol pm ρ).2 = .error err) := by
  suffices h : SeqPhase f 0 (minimizeR env e f ftol pm ρ) (fun r => r.2.log.flatten.length) by
    exact ⟨fun i x hx => by simpa using h.number i x hx, h.stop⟩
  have hst := startR_seq (f := f) (env := env) (pm := pm) (ρ := ρ) hp
  rcases hs : startR env e f pm ρ with ⟨asked, err | s0⟩
  · rw [hs] at hst
    simp only [minimizeR, hs]
    exact hst.mapOk (by simp) (by simp)
  rw [hs] at hst
  rcases hn : e.mkNoise ρ.noise with err | noise
  · simp only [minimizeR, hs, hn]
    exact hst.mapOk (by simp) (by simp)
  · have hlo := loopR_seq (f := f) (env := env) (ftol := ftol) (ρ := ρ) hp noise
      (e.maxIter - 1).toNat 1 s0
    rcases hL : loopR env e f ftol ρ noise (e.maxIter - 1).toNat 1 s0 with ⟨more, err | s⟩ <;>
      rw [hL] at hlo <;> have h := seqPhase_append hst hlo
    · simp only [minimizeR, hs, hn, hL]
      exact h.mapOk (by simp) (by simp)
    · simp only [minimizeR, hs, hn, hL]
      exact h.mapOk (by simp) (by simp)

/-- A cost function that raises `TypeError` at its seventh call. -/
def Ex.raising (k : ℕ) (r : List ℚ) : Except PyErr ℚ :=
  if k = 6 then .error .typeError else .ok (Ex.cost k r)

/-- Of the 12 calls of the run 7 are made, the last one raises. -/
example : (fun o : List (List (ℕ × List ℚ)) × Ex.Out => (o.1.map List.length, errOf o.2))
    (minimizeR Ex.env Ex.eda Ex.raising 0 Ex.pm Ex.rand) = ([4, 3], some .typeError) := by
  decide +kernel

example : Ex.eda.parallel = false := by decide +kernel

/-- A function that raises only on individuals that are never asked for: the run is that of the
cost function that always returns. -/
example : (minimizeR Ex.env Ex.eda (fun k r => if r.length = 2 then .ok (Ex.cost k r)
    else .error .typeError) 0 Ex.pm Ex.rand).2.toOption.map (fun x => x.1.history) =
    (minimize Ex.env Ex.eda Ex.cost 0 Ex.pm Ex.rand).toOption.map (fun x => x.1.history) := by
  decide +kernel

end Verif
