/-
Facts about the archive of `SPEDA` and `MultivariateKEDA`, and about runs that differ in the noise
or in the first update only.
-/
import Verif.Lemmas.MultiGauss
import Verif.Lemmas.Reuse
import Verif.Model.Archive
import Verif.Spec.Archive

set_option linter.unusedSectionVars false

namespace Verif

open Spec

theorem lastN_append {α : Type} (k : ℕ) (a b : List α) :
    lastN k (lastN k a ++ b) = lastN k (a ++ b) := by
  unfold lastN
  rw [List.length_append, List.length_drop, List.length_append, List.drop_append, List.drop_drop,
    List.drop_append, List.length_drop]
  rcases Nat.lt_or_ge a.length k with h | h
  · rw [show a.length - k = 0 by omega]
    simp
  · rw [show a.length - (a.length - k) = k by omega]
    congr 2 <;> omega

theorem lastN_length {α : Type} (k : ℕ) (l : List α) : (lastN k l).length = min k l.length := by
  unfold lastN; rw [List.length_drop]; omega

theorem lastN_all {α : Type} {k : ℕ} {l : List α} (h : l.length ≤ k) : lastN k l = l := by
  unfold lastN; rw [show l.length - k = 0 by omega]; rfl

/-- Blocks of `m` elements: the last `k * m` elements are the last `k` blocks. -/
theorem lastN_flatten {α : Type} {m : ℕ} (k : ℕ) {ls : List (List α)} (h : ∀ l ∈ ls, l.length = m) :
    lastN (k * m) ls.flatten = (lastN k ls).flatten := by
  induction ls with
  | nil => simp [lastN]
  | cons l ls ih =>
    have hl := h l (by simp)
    have hlen : ls.flatten.length = ls.length * m := by
      have : ∀ ls : List (List α), (∀ l ∈ ls, l.length = m) → ls.flatten.length = ls.length * m := by
        intro ls
        induction ls with
        | nil => simp
        | cons a as iha =>
          intro hh
          simp only [List.flatten_cons, List.length_append, List.length_cons]
          rw [iha (fun l hl => hh l (by simp [hl])), hh a (by simp)]
          ring
      exact this ls (fun x hx => h x (by simp [hx]))
    have ih' := ih (fun x hx => h x (by simp [hx]))
    unfold lastN at ih' ⊢
    simp only [List.flatten_cons, List.length_append, List.length_cons, hl]
    rcases Nat.lt_or_ge ls.length k with hk | hk
    · rw [show ls.length + 1 - k = 0 by omega]
      have : m + ls.flatten.length ≤ k * m := by
        rw [hlen]; nlinarith
      rw [show m + ls.flatten.length - k * m = 0 by omega]
      simp
    · have hle : k * m ≤ ls.flatten.length := by rw [hlen]; exact Nat.mul_le_mul_right _ hk
      rw [show ls.length + 1 - k = (ls.length - k) + 1 by omega, List.drop_succ_cons, ← ih',
        show m + ls.flatten.length - k * m = l.length + (ls.flatten.length - k * m) by omega,
        List.drop_append]
      simp

theorem sliceFrom_neg {α : Type} (l : List α) {k : ℤ} (h : 1 ≤ k) :
    sliceFrom l (-k) = lastN k.toNat l := by
  unfold sliceFrom lastN
  rw [if_neg (by omega), neg_neg]

theorem sliceFrom_nonneg {α : Type} (l : List α) {k : ℤ} (h : 0 ≤ k) :
    sliceFrom l k = l.drop k.toNat := by
  unfold sliceFrom
  rw [if_pos h]

section runs

variable {R C σ Ω : Type} [PyCost C] {env : Env C} {e : Eda R σ Ω} {f : ℕ → R → C} {ftol : C}
  {pm : σ} {ρ : Rand Ω}

/-- The elites of a run, collected up to the head of pass `t`. -/
theorem eliteSeq_exists {t : ℕ} {s : St R C σ} (h : Visited env e f ftol pm ρ t s) :
    ∃ els, EliteSeq env e f ftol pm ρ t els := by
  induction h with
  | first h0 => exact ⟨[], rfl, fun i s hi _ => by omega⟩
  | @next t s s' noise hv hn hs ih =>
    obtain ⟨els, h1, h2⟩ := ih
    have hp := visited_pos hv
    refine ⟨els ++ [s'.elite], by simp [h1]; omega, ?_⟩
    intro i s2 hi hv2
    rcases Nat.lt_or_ge (i + 1) t with hlt | hge
    · rw [List.getElem?_append_left (by omega)]
      exact h2 i s2 (by omega) hv2
    · have : i + 2 = t + 1 := by omega
      rw [this] at hv2
      have := visited_unique hv2 (.next hv hn hs)
      subst this
      rw [List.getElem?_append_right (by omega), h1, show i - (t - 1) = 0 by omega]
      rfl

theorem eliteSeq_unique {t : ℕ} {s : St R C σ} {els els' : List (Gen R)}
    (hv : Visited env e f ftol pm ρ t s)
    (h : EliteSeq env e f ftol pm ρ t els) (h' : EliteSeq env e f ftol pm ρ t els') : els = els' := by
  have key : ∀ {t s}, Visited env e f ftol pm ρ t s → ∀ k, 1 ≤ k → k ≤ t →
      ∃ s', Visited env e f ftol pm ρ k s' := by
    intro t s hv
    induction hv with
    | first h0 => intro k h1 h2; exact ⟨_, by rw [show k = 1 by omega]; exact .first h0⟩
    | @next t s s' noise hv hn hs ih =>
      intro k h1 h2
      rcases Nat.lt_or_ge t k with hlt | hge
      · exact ⟨s', by rw [show k = t + 1 by omega]; exact .next hv hn hs⟩
      · exact ih k h1 hge
  apply List.ext_getElem?
  intro i
  by_cases hi : i + 2 ≤ t
  · obtain ⟨s', hs'⟩ := key hv (i + 2) (by omega) hi
    rw [h.2 i s' hi hs', h'.2 i s' hi hs']
  · rw [List.getElem?_eq_none (by have := h.1; omega), List.getElem?_eq_none (by have := h'.1; omega)]

theorem eliteSeq_next {t : ℕ} {s s' : St R C σ} {noise : Gen R → Except PyErr (Gen R)}
    {els : List (Gen R)} (hv : Visited env e f ftol pm ρ t s) (hn : e.mkNoise ρ.noise = .ok noise)
    (hs : step env e f ftol ρ noise t s = .ok (s', false))
    (h : EliteSeq env e f ftol pm ρ t els) :
    EliteSeq env e f ftol pm ρ (t + 1) (els ++ [s'.elite]) := by
  have hp := visited_pos hv
  refine ⟨by simp [h.1]; omega, ?_⟩
  intro i s2 hi hv2
  rcases Nat.lt_or_ge (i + 1) t with hlt | hge
  · rw [List.getElem?_append_left (by have := h.1; omega)]
    exact h.2 i s2 (by omega) hv2
  · have : i + 2 = t + 1 := by omega
    rw [this] at hv2
    have := visited_unique hv2 (.next hv hn hs)
    subst this
    rw [List.getElem?_append_right (by have := h.1; omega), h.1, show i - (t - 1) = 0 by omega]
    rfl

/-- An invariant between the collected elites and the model, kept by every update, holds at every
head. -/
theorem eliteSeq_inv (P : List (Gen R) → σ → Prop) (h0 : P [] pm)
    (hstep : ∀ els a g el ω a', P els a → e.updatePm a g el ω = .ok a' → P (els ++ [el]) a')
    {t : ℕ} {s : St R C σ} (h : Visited env e f ftol pm ρ t s) :
    ∀ {els}, EliteSeq env e f ftol pm ρ t els → P els s.pm := by
  induction h with
  | first hs =>
    intro els hels
    obtain ⟨_, _, _, _, _, hs0⟩ := start_ok hs
    have : els = [] := List.length_eq_zero_iff.1 hels.1
    rw [this, hs0.pm]; exact h0
  | @next t s s' noise hv hn hs ih =>
    intro els hels
    obtain ⟨els1, h1⟩ := eliteSeq_exists hv
    have h2 := eliteSeq_next hv hn hs h1
    rw [eliteSeq_unique (.next hv hn hs) hels h2]
    obtain ⟨_, _, _, _, _, _, hst⟩ := step_ok hs
    have := hstep els1 _ _ _ _ _ (ih h1) hst.update
    rw [hst.elite]; exact this

/-- Runs from two models that agree on the first update return the same result. -/
theorem minimize_first_update {a b : σ}
    (hu : ∀ s0 s1 noisy, start env e f a ρ = .ok s0 → truncation env e s0 = .ok s1 →
      e.updatePm a noisy s1.elite (ρ.learn 1) = e.updatePm b noisy s1.elite (ρ.learn 1)) :
    (minimize env e f ftol a ρ).map (fun x => (x.1, x.2.log)) =
      (minimize env e f ftol b ρ).map (fun x => (x.1, x.2.log)) := by
  have hstart : ∀ a b, start env e f b ρ = (start env e f a ρ).map (fun s => { s with pm := b }) := by
    intro a b
    unfold start
    cases e.initGen ρ.init with
    | error err => rfl
    | ok g =>
      simp only
      cases checkGeneration env e.parallel f 0 g.rows with
      | error err => rfl
      | ok ev =>
        obtain ⟨calls, evals⟩ := ev
        simp only
        cases g.rows with
        | nil => rfl
        | cons r0 rs =>
          cases evals with
          | nil => rfl
          | cons c0 cs =>
            simp only
            cases pyMin (c0 :: cs) with
            | none => rfl
            | some best =>
              simp only
              cases whereFirst (c0 :: cs) best with
              | none => rfl
              | some i => rfl
  unfold minimize
  rw [hstart a b]
  cases h0 : start env e f a ρ with
  | error err => rfl
  | ok s0 =>
    have hpm : s0.pm = a := by
      obtain ⟨_, _, _, _, _, hs⟩ := start_ok h0
      exact hs.pm
    simp only [Except.map]
    cases e.mkNoise ρ.noise with
    | error err => rfl
    | ok noise =>
      simp only
      have hstep : step env e f ftol ρ noise 1 { s0 with pm := b } =
          step env e f ftol ρ noise 1 s0 := by
        have htr : truncation env e { s0 with pm := b } =
            (truncation env e s0).map (fun s1 => { s1 with pm := b }) := by
          unfold truncation
          cases s0.gen.concat s0.elite <;> rfl
        unfold step
        rw [htr]
        cases ht : truncation env e s0 with
        | error err => rfl
        | ok s1 =>
          have hpm1 := (truncation_fields ht).2.2.1
          simp only [Except.map]
          cases noise s1.gen with
          | error err => rfl
          | ok noisy =>
            simp only
            rw [← hu s0 s1 noisy h0 ht, hpm1, hpm]
      cases (e.maxIter - 1).toNat with
      | zero => rfl
      | succ n =>
        unfold loop
        rw [hstep]

/-- Replacing the noise does not matter for an algorithm whose update ignores the noisy
generation, as long as adding the new noise succeeds where the old one did. -/
theorem minimize_noise_irrelevant {mk2 : Ω → Except PyErr (Gen R → Except PyErr (Gen R))}
    {ρ2 : Rand Ω} (hr : ρ2.init = ρ.init ∧ ρ2.learn = ρ.learn ∧ ρ2.sample = ρ.sample)
    (hu : ∀ a g g' el ω, e.updatePm a g el ω = e.updatePm a g' el ω)
    (hn : ∀ nz, e.mkNoise ρ.noise = .ok nz → ∃ nz2, mk2 ρ2.noise = .ok nz2 ∧
      ∀ g g1, nz g = .ok g1 → ∃ g2, nz2 g = .ok g2)
    {res : EdaResult R C × St R C σ} (h : minimize env e f ftol pm ρ = .ok res) :
    minimize env { e with mkNoise := mk2 } f ftol pm ρ2 = .ok res := by
  have hstart : start env { e with mkNoise := mk2 } f pm ρ2 = start env e f pm ρ := by
    unfold start
    rw [hr.1]
  have hstep : ∀ nz nz2, (∀ g g1, nz g = .ok g1 → ∃ g2, nz2 g = .ok g2) →
      ∀ t (s : St R C σ) x, step env e f ftol ρ nz t s = .ok x →
      step env { e with mkNoise := mk2 } f ftol ρ2 nz2 t s = .ok x := by
    intro nz nz2 hnn t s x hx
    have htr : truncation env { e with mkNoise := mk2 } s = truncation env e s := rfl
    unfold step at hx ⊢
    rw [htr]
    cases ht : truncation env e s with
    | error err => rw [ht] at hx; cases hx
    | ok s1 =>
      rw [ht] at hx
      simp only at hx ⊢
      cases hg : nz s1.gen with
      | error err => rw [hg] at hx; cases hx
      | ok noisy =>
        rw [hg] at hx
        obtain ⟨g2, hg2⟩ := hnn _ _ hg
        rw [hg2]
        simp only at hx ⊢
        rw [hu s1.pm g2 noisy, hr.2.1, hr.2.2]
        exact hx
  have hloop : ∀ nz nz2, (∀ g g1, nz g = .ok g1 → ∃ g2, nz2 g = .ok g2) →
      ∀ n t (s : St R C σ) x, loop env e f ftol ρ nz n t s = .ok x →
      loop env { e with mkNoise := mk2 } f ftol ρ2 nz2 n t s = .ok x := by
    intro nz nz2 hnn n
    induction n with
    | zero => intro t s x hx; exact hx
    | succ n ih =>
      intro t s x hx
      unfold loop at hx ⊢
      cases hs : step env e f ftol ρ nz t s with
      | error err => rw [hs] at hx; cases hx
      | ok y =>
        obtain ⟨s', b⟩ := y
        rw [hs] at hx
        rw [hstep nz nz2 hnn _ _ _ hs]
        cases b with
        | true => exact hx
        | false => exact ih _ _ _ hx
  unfold minimize at h ⊢
  rw [hstart]
  cases h0 : start env e f pm ρ with
  | error err => rw [h0] at h; cases h
  | ok s0 =>
    rw [h0] at h
    simp only at h ⊢
    cases hm : e.mkNoise ρ.noise with
    | error err => rw [hm] at h; cases h
    | ok nz =>
      rw [hm] at h
      obtain ⟨nz2, hm2, hnn⟩ := hn nz hm
      rw [hm2]
      simp only at h ⊢
      cases hl : loop env e f ftol ρ nz (e.maxIter - 1).toNat 1 s0 with
      | error err => rw [hl] at h; cases h
      | ok s =>
        rw [hl] at h
        rw [hloop nz nz2 hnn _ _ _ _ hl]
        exact h

end runs

section archive

variable {S L K : Type} [DecidableEq L] [Field K] [LinearOrder K] [IsStrictOrderedRing K] [FloorRing K]
  {kind : BnType} {fl : K → K} {lib : NetLib S L K (Draws K)} {name : ℕ → L} {l : Num K}
  {cfg : NetCfg K L}

theorem learn_config {Ω : Type} {lib : NetLib S L K Ω} {b b' : BNet S L K} {g : Gen (List K)}
    {nf : ℤ} {ω : Ω} (h : b.learn lib g nf ω = .ok b') :
    b'.kind = b.kind ∧ b'.vars = b.vars ∧ b'.white = b.white ∧ b'.black = b.black := by
  unfold BNet.learn at h
  split at h
  · cases h
  split at h
  · cases h
  split at h
  · cases h
  split at h <;> cases h <;> exact ⟨rfl, rfl, rfl, rfl⟩

/-- `learn` reads only the configuration of the network object; for a `GBN` this determines the whole
new object. -/
theorem learn_dep {Ω : Type} {lib : NetLib S L K Ω} {a b : BNet S L K} {g : Gen (List K)}
    {nf : ℤ} {ω : Ω} (hk : a.kind = b.kind) (hv : a.vars = b.vars) (hw : a.white = b.white)
    (hb : a.black = b.black) (ht : a.kind ≠ .gaussian → a.topOrder = b.topOrder ∧ a.fitted = b.fitted) :
    a.learn lib g nf ω = b.learn lib g nf ω := by
  obtain ⟨ak, av, ap, aw, ab, ato, af⟩ := a
  obtain ⟨bk, bv, bp, bw, bb, bto, bf⟩ := b
  simp only at hk hv hw hb ht
  subst hk hv hw hb
  unfold BNet.learn
  simp only
  cases toFrame av g with
  | error err => rfl
  | ok data =>
    dsimp only
    cases lib.hc data (hcArgs ak (lib.new ak av) nf aw ab) ω with
    | error err => rfl
    | ok pm =>
      dsimp only
      cases lib.fit pm data with
      | error err => rfl
      | ok pm' =>
        dsimp only
        cases ak with
        | gaussian => rfl
        | semiparametric => obtain ⟨rfl, rfl⟩ := ht (by simp); rfl
        | kde => obtain ⟨rfl, rfl⟩ := ht (by simp); rfl

theorem learn_top {Ω : Type} {lib : NetLib S L K Ω} {b b' : BNet S L K} {g : Gen (List K)}
    {nf : ℤ} {ω : Ω} (h : b.learn lib g nf ω = .ok b') (hk : b.kind ≠ .gaussian) :
    b'.topOrder = b.topOrder ∧ b'.fitted = b.fitted := by
  unfold BNet.learn at h
  split at h
  · cases h
  split at h
  · cases h
  split at h
  · cases h
  split at h
  · contradiction
  · cases h; exact ⟨rfl, rfl⟩

theorem select_shape {d : Frame L K} {labels : List L} {g : Gen (List K)}
    (h : d.select labels = .ok g) : g.dt = .float ∧ g.cols = labels.length ∧
      Rect labels.length g.rows ∧ g.rows.length = d.rows.length := by
  unfold Frame.select at h
  split at h
  · cases h
  rename_i idx hidx
  cases h
  have hlen : ∀ (ls : List L) (idx : List ℕ), ls.mapM (fun l => d.cols.idxOf? l) = some idx →
      idx.length = ls.length := by
    intro ls
    induction ls with
    | nil => intro idx h; simp at h; subst h; rfl
    | cons x xs ih =>
      intro idx h
      rw [List.mapM_cons] at h
      cases hx : d.cols.idxOf? x with
      | none => rw [hx] at h; simp at h
      | some k =>
        rw [hx] at h
        cases hxs : xs.mapM (fun l => d.cols.idxOf? l) with
        | none => rw [hxs] at h; simp at h
        | some ks =>
          rw [hxs] at h
          simp at h
          subst h
          simp [ih ks hxs]
  refine ⟨rfl, rfl, ?_, by simp⟩
  intro r hr
  obtain ⟨r', _, rfl⟩ := List.mem_map.1 hr
  simp [hlen _ _ hidx]

theorem netSample_shape {Ω : Type} {lib : NetLib S L K Ω} {b : BNet S L K} {size : ℤ} {ω : Ω}
    {g : Gen (List K)} (h : b.sample lib size ω = .ok g) : g.dt = .float ∧ g.cols = b.vars.length ∧
      Rect b.vars.length g.rows ∧ (Sized lib → (g.rows.length : ℤ) = size) := by
  unfold BNet.sample at h
  split at h
  · cases h
  rename_i d hd
  obtain ⟨h1, h2, h3, h4⟩ := select_shape h
  exact ⟨h1, h2, h3, fun hs => by rw [h4]; exact hs _ _ _ _ hd⟩

theorem EGNA_ok {e : Eda (List K) (BNet S L K) (Draws K)} {b : BNet S L K}
    (h : EGNA fl lib name cfg = .ok (e, b)) :
    mkEda fl cfg.base (uniformInitSample fl cfg.base.nVars cfg.lower cfg.upper cfg.base.sizeGen)
      (fun b g _ ω => b.learn lib g 10 ω) (fun b ω => b.sample lib cfg.base.sizeGen ω) = .ok e ∧
    (∃ u, UniformInit.new cfg.base.nVars cfg.lower cfg.upper = .ok u) ∧
    b = BNet.new lib .gaussian ((List.range cfg.base.nVars).map name) cfg.white cfg.black := by
  unfold EGNA at h
  split at h
  · cases h
  rename_i e' he
  split at h
  · cases h
  rename_i c hc
  cases h
  exact ⟨he, ⟨c, hc⟩, rfl⟩

variable {e : Eda (List K) (Arch S L K) (Draws K)} {a : Arch S L K}

theorem archEda_ok (h : archEda kind fl lib name l cfg = .ok (e, a)) :
    mkEda fl { cfg.base with eliteFactor := cfg.base.alpha }
      (uniformInitSample fl cfg.base.nVars cfg.lower cfg.upper cfg.base.sizeGen)
      (fun a _ elite ω => a.update lib (archLen fl l cfg.base.sizeGen cfg.base.alpha) elite ω)
      (fun a ω => a.net.sample lib cfg.base.sizeGen ω) = .ok e ∧
    (∃ u, UniformInit.new cfg.base.nVars cfg.lower cfg.upper = .ok u) ∧
    a = { net := BNet.new lib kind ((List.range cfg.base.nVars).map name) cfg.white cfg.black
          archive := { dt := .float, cols := cfg.base.nVars, rows := [] } } := by
  unfold archEda at h
  split at h
  · cases h
  rename_i e' he
  split at h
  · cases h
  rename_i c hc
  cases h
  exact ⟨he, ⟨c, hc⟩, rfl⟩

/-- What an update does. -/
structure UpdateOk (lib : NetLib S L K (Draws K)) (k : ℤ) (a a' : Arch S L K) (el : Gen (List K))
    (ω : Draws K) : Prop where
  cols : a.archive.cols = el.cols
  rows : a'.archive.rows = sliceFrom (a.archive.rows ++ el.rows) (-k)
  archCols : a'.archive.cols = a.archive.cols
  dt : a'.archive.dt = a.archive.dt.promote el.dt
  learn : a.net.learn lib a'.archive 10 ω = .ok a'.net

theorem update_ok {k : ℤ} {a a' : Arch S L K} {el : Gen (List K)} {ω : Draws K}
    (h : a.update lib (.int k) el ω = .ok a') : UpdateOk lib k a a' el ω := by
  unfold Arch.update at h
  split at h
  · cases h
  rename_i ar har
  split at h
  · cases h
  rename_i net hnet
  cases h
  unfold updateArchive Gen.concat at har
  split at har
  · cases har
  rename_i c hc
  split at hc
  · rename_i hcol
    cases hc
    cases har
    exact ⟨hcol, rfl, rfl, rfl, hnet⟩
  · cases hc

theorem update_flt {x : K} {a : Arch S L K} {el : Gen (List K)} {ω : Draws K}
    {r : Arch S L K} : a.update lib (.flt x) el ω ≠ .ok r := by
  intro h
  unfold Arch.update at h
  split at h
  · cases h
  rename_i ar har
  unfold updateArchive at har
  split at har
  · cases har
  · cases har

end archive

end Verif
