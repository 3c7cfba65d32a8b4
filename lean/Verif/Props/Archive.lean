/-
The algorithms built on continuous networks: C16 (archive), C59 (noise), and the parts of C08, C15,
C38 and C53 that concern `EGNA`, `SPEDA` and `MultivariateKEDA`.

`archEda .semiparametric` is `SPEDA`, `archEda .kde` is `MultivariateKEDA`.
-/
import Verif.Lemmas.Archive
import Verif.Props.MultiGauss
import Verif.Props.NetEvidence

set_option linter.unusedSectionVars false

namespace Verif

open Spec PyCost

section

variable {S L K : Type} [DecidableEq L] [Field K] [LinearOrder K] [IsStrictOrderedRing K] [FloorRing K]
variable {C : Type} [PyCost C] {env : Env C} {f : ℕ → List K → C} {ftol : C} {ρ : Rand (Draws K)}
variable {kind : BnType} {fl : K → K} {lib : NetLib S L K (Draws K)} {name : ℕ → L} {l : ℤ}
variable {cfg : NetCfg K L} {e : Eda (List K) (Arch S L K) (Draws K)} {a : Arch S L K}

example (lv : Num K) : SPEDA fl lib name lv cfg = archEda .semiparametric fl lib name lv cfg := rfl
example (lv : Num K) : MultivariateKEDA fl lib name lv cfg = archEda .kde fl lib name lv cfg := rfl

theorem archEda_updatePm {lv : Num K} (h : archEda kind fl lib name lv cfg = .ok (e, a)) :
    e.updatePm = (fun a _ elite ω =>
      a.update lib (archLen fl lv cfg.base.sizeGen cfg.base.alpha) elite ω) :=
  (mkEda_ok (archEda_ok h).1).updatePm

theorem archEda_eliteLen {lv : Num K} (h : archEda kind fl lib name lv cfg = .ok (e, a)) :
    e.eliteLen = selLen fl cfg.base.sizeGen cfg.base.alpha :=
  (mkEda_ok (archEda_ok h).1).eliteLen

/-! ### C16 -/

/-- **C16** (partial: `l * int(size_gen * alpha) ≥ 1`) at the head of every pass the archive consists
of the last `l * int(size_gen * alpha)` individuals of the elites selected so far, in order of
arrival; in particular it has at most that many rows. -/
theorem C16_window_partial (h : archEda kind fl lib name (.int l) cfg = .ok (e, a))
    (hl : 1 ≤ l * selLen fl cfg.base.sizeGen cfg.base.alpha) {t : ℕ}
    {s : St (List K) C (Arch S L K)} (hv : Visited env e f ftol a ρ t s) :
    ∃ els, EliteSeq env e f ftol a ρ t els ∧
      s.pm.archive.rows = lastN (l * selLen fl cfg.base.sizeGen cfg.base.alpha).toNat
        (els.map (fun g => g.rows)).flatten ∧
      (s.pm.archive.rows.length : ℤ) ≤ l * selLen fl cfg.base.sizeGen cfg.base.alpha := by
  obtain ⟨els, hels⟩ := eliteSeq_exists hv
  have key := eliteSeq_inv (fun els (b : Arch S L K) => b.archive.rows =
    lastN (l * selLen fl cfg.base.sizeGen cfg.base.alpha).toNat (els.map (fun g => g.rows)).flatten)
    (by rw [(archEda_ok h).2.2]; simp [lastN]) (by
      intro els b g el ω b' hb hu
      rw [archEda_updatePm h] at hu
      have := (update_ok hu).rows
      rw [this, sliceFrom_neg _ hl, hb, lastN_append]
      simp) hv hels
  refine ⟨els, hels, key, ?_⟩
  rw [key, lastN_length]
  omega

/-- **C16** the archive that a pass learns from (also in the last pass of a run): the last
`l * int(size_gen * alpha)` individuals of all elites up to and including that of the pass. -/
theorem C16_learned_partial (h : archEda kind fl lib name (.int l) cfg = .ok (e, a))
    (hl : 1 ≤ l * selLen fl cfg.base.sizeGen cfg.base.alpha) {t : ℕ}
    {s s' : St (List K) C (Arch S L K)} (hv : Visited env e f ftol a ρ t s)
    {nz : Gen (List K) → Except PyErr (Gen (List K))} {brk : Bool}
    (hs : step env e f ftol ρ nz t s = .ok (s', brk)) :
    ∃ els, EliteSeq env e f ftol a ρ t els ∧
      s'.pm.archive.rows = lastN (l * selLen fl cfg.base.sizeGen cfg.base.alpha).toNat
        ((els ++ [s'.elite]).map (fun g => g.rows)).flatten ∧
      s.pm.net.learn lib s'.pm.archive 10 (ρ.learn t) = .ok s'.pm.net := by
  obtain ⟨els, hels, hr, _⟩ := C16_window_partial h hl hv
  obtain ⟨_, _, _, _, _, _, hst⟩ := step_ok hs
  have hu := hst.update
  rw [archEda_updatePm h] at hu
  have hk := update_ok hu
  refine ⟨els, hels, ?_, hk.learn⟩
  rw [hk.rows, sliceFrom_neg _ hl, hr, lastN_append, hst.elite]
  simp

/-- The elite has `int(size_gen * alpha)` rows after the first selection if the generations have at
least that many. -/
theorem truncation_elite_length {R σ Ω : Type} {e : Eda R σ Ω} (hv : env.Valid) {s s1 : St R C σ}
    (ha : Aligned s) (h : truncation env e s = .ok s1) (ht : 0 ≤ e.eliteLen) :
    s1.elite.rows.length = min e.eliteLen.toNat (s.gen.rows.length + s.elite.rows.length) := by
  obtain ⟨P, h1, _, _, _, h3, _⟩ := truncation_ok hv ha h
  have hlen := h1.length_eq
  rw [poolOf_length ha] at hlen
  rw [h3, List.length_map, List.length_take]
  unfold sliceLen
  rw [if_pos ht]
  omega

/-- Generations have at least `m` rows. -/
theorem archEda_gen_rows (hsz : Sized lib) {lv : Num K}
    (h : archEda kind fl lib name lv cfg = .ok (e, a))
    {m : ℕ} (hm : (m : ℤ) ≤ cfg.base.sizeGen)
    (hd : ∀ d, cfg.base.initData = some d → m ≤ d.rows.length)
    {pm : Arch S L K} {t : ℕ} {s : St (List K) C (Arch S L K)} (hv : Visited env e f ftol pm ρ t s) :
    m ≤ s.gen.rows.length := by
  have hmk := mkEda_ok (archEda_ok h).1
  refine visited_inv (fun s => m ≤ s.gen.rows.length) ?_ ?_ hv
  · intro s0 h0
    obtain ⟨_, _, _, _, _, hs⟩ := start_ok h0
    have hi := hs.init
    cases hdd : cfg.base.initData with
    | none =>
      rw [hmk.initNone hdd] at hi
      have := (uniformInitSample_shape hi).2.2.2
      omega
    | some d =>
      rw [(hmk.initSome d hdd).2] at hi
      rw [← Except.ok.inj hi]
      exact hd d hdd
  · intro nz t s s' b _ _ hst
    obtain ⟨_, _, _, _, _, _, hs⟩ := step_ok hst
    have hsm := hs.sample
    rw [hmk.sample] at hsm
    have := (netSample_shape hsm).2.2.2 hsz
    omega

/-- **C16** (partial: `l ≥ 1` and at least one selected individual) if every generation has at least
`int(size_gen * alpha)` individuals, the archive at the head of a pass is the concatenation of the
elites of the last `l` passes, each with `int(size_gen * alpha)` individuals. -/
theorem C16_generations_partial (hvd : env.Valid) (hsz : Sized lib)
    (h : archEda kind fl lib name (.int l) cfg = .ok (e, a)) (hl : 1 ≤ l)
    (hm : 1 ≤ selLen fl cfg.base.sizeGen cfg.base.alpha)
    (hms : selLen fl cfg.base.sizeGen cfg.base.alpha ≤ cfg.base.sizeGen)
    (hd : ∀ d, cfg.base.initData = some d →
      selLen fl cfg.base.sizeGen cfg.base.alpha ≤ d.rows.length)
    {t : ℕ} {s : St (List K) C (Arch S L K)} (hv : Visited env e f ftol a ρ t s) :
    ∃ els, EliteSeq env e f ftol a ρ t els ∧
      s.pm.archive.rows = ((lastN l.toNat els).map (fun g => g.rows)).flatten ∧
      ∀ g ∈ els, (g.rows.length : ℤ) = selLen fl cfg.base.sizeGen cfg.base.alpha := by
  obtain ⟨els, hels, hr, _⟩ := C16_window_partial h (by nlinarith) hv
  have hlen : ∀ g ∈ els, (g.rows.length : ℤ) = selLen fl cfg.base.sizeGen cfg.base.alpha := by
    have key : ∀ {t : ℕ} {s : St (List K) C (Arch S L K)}, Visited env e f ftol a ρ t s →
        ∀ els, EliteSeq env e f ftol a ρ t els →
        ∀ g ∈ els, (g.rows.length : ℤ) = selLen fl cfg.base.sizeGen cfg.base.alpha := by
      intro t s hv
      induction hv with
      | first h0 =>
        intro els hels g hg
        rw [List.length_eq_zero_iff.1 hels.1] at hg
        simp at hg
      | @next t s s' nz hv hn hs ih =>
        intro els hels g hg
        obtain ⟨els1, h1⟩ := eliteSeq_exists hv
        rw [eliteSeq_unique (.next hv hn hs) hels (eliteSeq_next hv hn hs h1)] at hg
        rcases List.mem_append.1 hg with hg | hg
        · exact ih els1 h1 g hg
        · rw [List.mem_singleton] at hg
          obtain ⟨s1, _, _, _, _, _, hst⟩ := step_ok hs
          have hlen := truncation_elite_length hvd (visited_aligned hvd hv) hst.trunc
            (by rw [archEda_eliteLen h]; omega)
          have hg2 := archEda_gen_rows hsz h
            (m := (selLen fl cfg.base.sizeGen cfg.base.alpha).toNat) (by omega)
            (fun d hdd => by have := hd d hdd; omega) hv
          rw [hg, hst.elite, hlen, archEda_eliteLen h]
          omega
    exact key hv els hels
  refine ⟨els, hels, ?_, hlen⟩
  have e1 : (l * selLen fl cfg.base.sizeGen cfg.base.alpha).toNat =
      l.toNat * (selLen fl cfg.base.sizeGen cfg.base.alpha).toNat :=
    Int.toNat_mul (by omega) (by omega)
  rw [hr, e1, lastN_flatten]
  · congr 1
    unfold lastN
    rw [List.length_map, List.map_drop]
  · intro x hx
    obtain ⟨g, hg, rfl⟩ := List.mem_map.1 hx
    have := hlen g hg
    omega

/-- **C16** with `l * int(size_gen * alpha) = 0` (for example `l = 0`) nothing is ever removed: the
archive holds every elite of the run. -/
theorem C16_zero_keeps_all (h : archEda kind fl lib name (.int l) cfg = .ok (e, a))
    (hl : l * selLen fl cfg.base.sizeGen cfg.base.alpha = 0) {t : ℕ}
    {s : St (List K) C (Arch S L K)} (hv : Visited env e f ftol a ρ t s) :
    ∃ els, EliteSeq env e f ftol a ρ t els ∧
      s.pm.archive.rows = (els.map (fun g => g.rows)).flatten := by
  obtain ⟨els, hels⟩ := eliteSeq_exists hv
  refine ⟨els, hels, eliteSeq_inv (fun els (b : Arch S L K) => b.archive.rows =
    (els.map (fun g => g.rows)).flatten) (by rw [(archEda_ok h).2.2]; simp) ?_ hv hels⟩
  intro els b g el ω b' hb hu
  rw [archEda_updatePm h] at hu
  have hr := (update_ok hu).rows
  rw [hr, hl, sliceFrom_nonneg _ (by omega), hb]
  simp

/-- **C16** with a negative `l` the *oldest* individuals are dropped, `-l * int(size_gen * alpha)`
in each pass; for `l = -1` and full elites the model is always learned from an empty archive. -/
theorem C16_negative (h : archEda kind fl lib name (.int l) cfg = .ok (e, a))
    (hl : l * selLen fl cfg.base.sizeGen cfg.base.alpha ≤ 0)
    {b b' : Arch S L K} {g el : Gen (List K)} {ω : Draws K} (hu : e.updatePm b g el ω = .ok b') :
    b'.archive.rows = (b.archive.rows ++ el.rows).drop
      (-(l * selLen fl cfg.base.sizeGen cfg.base.alpha)).toNat := by
  rw [archEda_updatePm h] at hu
  have hr := (update_ok hu).rows
  rw [hr, sliceFrom_nonneg _ (by omega)]

/-- **C16** a float `l` (its annotated type), even an integral one, makes every run of at least two
generations raise. -/
theorem C16_float_l {x : K} (h : archEda kind fl lib name (.flt x) cfg = .ok (e, a))
    (hmax : 2 ≤ cfg.base.maxIter) {pm : Arch S L K}
    (r : EdaResult (List K) C × St (List K) C (Arch S L K)) : minimize env e f ftol pm ρ ≠ .ok r := by
  intro hrun
  obtain ⟨res, s⟩ := r
  have hmk := mkEda_ok (archEda_ok h).1
  obtain ⟨s0, nz, s1, brk, _, _, hs⟩ := first_pass (by rw [hmk.maxIter]; exact hmax) hrun
  obtain ⟨_, _, _, _, _, _, hst⟩ := step_ok hs
  have hu := hst.update
  rw [archEda_updatePm h] at hu
  exact update_flt hu

/-! ### C59 -/

/-- **C59** the white noise never influences a run of `SPEDA` or `MultivariateKEDA`: whenever a run
with noise intensity `w_noise` (and any noise matrix) returns, the run without noise (and with any
other noise matrix) returns the same result, after the same evaluations, with the same archive. -/
theorem C59_noise_irrelevant {lv : Num K} (h : archEda kind fl lib name lv cfg = .ok (e, a))
    {e0 : Eda (List K) (Arch S L K) (Draws K)} {a0 : Arch S L K}
    (h0 : archEda kind fl lib name lv { cfg with base := { cfg.base with wNoise := none } } =
      .ok (e0, a0)) (noise0 : Draws K) {pm : Arch S L K}
    {r : EdaResult (List K) C × St (List K) C (Arch S L K)}
    (hrun : minimize env e f ftol pm ρ = .ok r) :
    a0 = a ∧ minimize env e0 f ftol pm { ρ with noise := noise0 } = .ok r := by
  have hmk := mkEda_ok (archEda_ok h).1
  have hmk0 := mkEda_ok (archEda_ok h0).1
  refine ⟨by rw [(archEda_ok h).2.2, (archEda_ok h0).2.2], ?_⟩
  have he : e0 = { e with mkNoise := e0.mkNoise } := by
    obtain ⟨s1, m1, d1, t1, el1, p1, i1, n1, u1, sa1⟩ := e
    obtain ⟨s2, m2, d2, t2, el2, p2, i2, n2, u2, sa2⟩ := e0
    have hi : i2 = i1 := by
      cases hd : cfg.base.initData with
      | none =>
        have e1 := hmk.initNone hd
        have e2 := hmk0.initNone hd
        simp only at e1 e2
        rw [e1, e2]
      | some d =>
        have e1 := (hmk.initSome d hd).2
        have e2 := (hmk0.initSome d hd).2
        simp only at e1 e2
        rw [e1, e2]
    have q1 := hmk.sizeGen; have q2 := hmk0.sizeGen
    have q3 := hmk.maxIter; have q4 := hmk0.maxIter
    have q5 := hmk.deadIter; have q6 := hmk0.deadIter
    have q7 := hmk.truncLen; have q8 := hmk0.truncLen
    have q9 := hmk.eliteLen; have q10 := hmk0.eliteLen
    have q11 := hmk.parallel; have q12 := hmk0.parallel
    have q13 := hmk.updatePm; have q14 := hmk0.updatePm
    have q15 := hmk.sample; have q16 := hmk0.sample
    simp only at q1 q2 q3 q4 q5 q6 q7 q8 q9 q10 q11 q12 q13 q14 q15 q16
    simp only [Eda.mk.injEq]
    exact ⟨q2.trans q1.symm, q4.trans q3.symm, q6.trans q5.symm, q8.trans q7.symm,
      q10.trans q9.symm, q12.trans q11.symm, hi, trivial, q14.trans q13.symm, q16.trans q15.symm⟩
  rw [he]
  refine minimize_noise_irrelevant (ρ := ρ) (ρ2 := { ρ with noise := noise0 }) ⟨rfl, rfl, rfl⟩ ?_ ?_ hrun
  · intro b g g' el ω
    rw [archEda_updatePm h]
  · intro nz hnz
    refine ⟨addNoise .zero, ?_, ?_⟩
    · rw [hmk0.mkNoise]
      simp [mkWhiteNoise, BaseCfg.noiseAttr]
    · intro g g1 hg
      rw [hmk.mkNoise] at hnz
      split at hnz
      · cases hnz
      rename_i z hz
      rw [← Except.ok.inj hnz] at hg
      refine ⟨g, addNoise_zero ?_⟩
      intro hob
      unfold addNoise at hg
      cases z <;> simp [hob] at hg

/-! ### C15 -/

/-- The configuration of a network object. -/
def BNet.SameConfig (b c : BNet S L K) : Prop :=
  b.kind = c.kind ∧ b.vars = c.vars ∧ b.white = c.white ∧ b.black = c.black ∧
    (b.kind ≠ .gaussian → b.topOrder = c.topOrder ∧ b.fitted = c.fitted)

/-- **C15** for `EGNA`. -/
theorem C15_EGNA_rerun {e : Eda (List K) (BNet S L K) (Draws K)} {b : BNet S L K}
    (h : EGNA fl lib name cfg = .ok (e, b)) {pm : BNet S L K} (hp : Reused e b pm) :
    (minimize env e f ftol pm ρ).map (fun x => (x.1, x.2.log)) =
      (minimize env e f ftol b ρ).map (fun x => (x.1, x.2.log)) := by
  have hmk := mkEda_ok (EGNA_ok h).1
  have hcfg : pm.SameConfig b := by
    induction hp with
    | fresh => exact ⟨rfl, rfl, rfl, rfl, fun _ => ⟨rfl, rfl⟩⟩
    | learned _ hu ih =>
      rw [hmk.updatePm] at hu
      obtain ⟨k1, k2, k3, k4⟩ := learn_config hu
      obtain ⟨i1, i2, i3, i4, i5⟩ := ih
      refine ⟨k1.trans i1, k2.trans i2, k3.trans i3, k4.trans i4, fun hne => ?_⟩
      rw [k1] at hne
      obtain ⟨l1, l2⟩ := learn_top hu hne
      exact ⟨l1.trans (i5 hne).1, l2.trans (i5 hne).2⟩
  refine minimize_pm_irrelevant (Rel := BNet.SameConfig) ?_ hcfg
  intro x y g el t hxy
  rw [hmk.updatePm]
  exact learn_dep hxy.1 hxy.2.1 hxy.2.2.1 hxy.2.2.2.1 hxy.2.2.2.2

/-- Objects that already ran keep the configuration of the network. -/
theorem C15_archive_reused {lv : Num K} (h : archEda kind fl lib name lv cfg = .ok (e, a))
    {pm : Arch S L K} (hp : Reused e a pm) : pm.net.SameConfig a.net ∧
      pm.archive.cols = a.archive.cols := by
  induction hp with
  | fresh => exact ⟨⟨rfl, rfl, rfl, rfl, fun _ => ⟨rfl, rfl⟩⟩, rfl⟩
  | learned _ hu ih =>
    rw [archEda_updatePm h] at hu
    obtain ⟨⟨i1, i2, i3, i4, i5⟩, i6⟩ := ih
    cases lv with
    | flt x => exact absurd hu update_flt
    | int l =>
      have hk := update_ok hu
      obtain ⟨k1, k2, k3, k4⟩ := learn_config hk.learn
      refine ⟨⟨k1.trans i1, k2.trans i2, k3.trans i3, k4.trans i4, fun hne => ?_⟩,
        hk.archCols.trans i6⟩
      rw [k1] at hne
      obtain ⟨l1, l2⟩ := learn_top hk.learn hne
      exact ⟨l1.trans (i5 hne).1, l2.trans (i5 hne).2⟩

theorem update_dep {k : ℤ} {x y : Arch S L K} (hn : x.net.SameConfig y.net)
    {el : Gen (List K)} {ω : Draws K}
    (ha : updateArchive (.int k : Num K) x.archive el = updateArchive (.int k) y.archive el) :
    x.update lib (.int k) el ω = y.update lib (.int k) el ω := by
  unfold Arch.update
  rw [ha]
  cases updateArchive (.int k : Num K) y.archive el with
  | error err => rfl
  | ok ar =>
    dsimp only
    rw [learn_dep hn.1 hn.2.1 hn.2.2.1 hn.2.2.2.1 hn.2.2.2.2]

/-- **C15** (partial) for `SPEDA` and `MultivariateKEDA`: an object that already ran and whose
archive was emptied again behaves like a fresh one.  (Missing: `minimize` does not empty it.) -/
theorem C15_archive_reset_partial (h : archEda kind fl lib name (.int l) cfg = .ok (e, a))
    {pm : Arch S L K} (hp : Reused e a pm) :
    (minimize env e f ftol { pm with archive := a.archive } ρ).map (fun x => (x.1, x.2.log)) =
      (minimize env e f ftol a ρ).map (fun x => (x.1, x.2.log)) := by
  refine minimize_first_update ?_
  intro s0 s1 noisy _ _
  rw [archEda_updatePm h]
  exact update_dep (x := { pm with archive := a.archive }) (y := a) (C15_archive_reused h hp).1 rfl

/-- **C15** (partial) with `l = 1` the archive is replaced completely in the first pass, so the
object behaves like a fresh one, whatever it did before. -/
theorem C15_archive_one_partial (hvd : env.Valid)
    (h : archEda kind fl lib name (.int 1) cfg = .ok (e, a))
    (hm : 1 ≤ selLen fl cfg.base.sizeGen cfg.base.alpha)
    (hms : selLen fl cfg.base.sizeGen cfg.base.alpha ≤ cfg.base.sizeGen)
    (hd : ∀ d, cfg.base.initData = some d →
      selLen fl cfg.base.sizeGen cfg.base.alpha ≤ d.rows.length)
    {pm : Arch S L K} (hp : Reused e a pm) (hdt : pm.archive.dt = .float) :
    (minimize env e f ftol pm ρ).map (fun x => (x.1, x.2.log)) =
      (minimize env e f ftol a ρ).map (fun x => (x.1, x.2.log)) := by
  have hmk := mkEda_ok (archEda_ok h).1
  obtain ⟨hc, hcol⟩ := C15_archive_reused h hp
  refine minimize_first_update ?_
  intro s0 s1 noisy h0 ht
  rw [archEda_updatePm h]
  refine update_dep hc ?_
  have hlen : (s1.elite.rows.length : ℤ) = selLen fl cfg.base.sizeGen cfg.base.alpha := by
    have h1 := truncation_elite_length hvd (start_aligned hvd h0) ht (by rw [archEda_eliteLen h]; omega)
    have h2 : (selLen fl cfg.base.sizeGen cfg.base.alpha).toNat ≤ s0.gen.rows.length := by
      obtain ⟨_, _, _, _, _, hs⟩ := start_ok h0
      have hi := hs.init
      cases hdd : cfg.base.initData with
      | none =>
        rw [hmk.initNone hdd] at hi
        have := (uniformInitSample_shape hi).2.2.2
        omega
      | some d =>
        rw [(hmk.initSome d hdd).2] at hi
        rw [← Except.ok.inj hi]
        have := hd d hdd
        omega
    rw [h1, archEda_eliteLen h]
    omega
  have hall : ∀ rows : List (List K), sliceFrom (rows ++ s1.elite.rows)
      (-(1 * selLen fl cfg.base.sizeGen cfg.base.alpha)) = s1.elite.rows := by
    intro rows
    rw [sliceFrom_neg _ (by omega)]
    unfold lastN
    rw [List.length_append, show rows.length + s1.elite.rows.length -
      (1 * selLen fl cfg.base.sizeGen cfg.base.alpha).toNat = rows.length by omega]
    simp
  have ha : a.archive = { dt := .float, cols := cfg.base.nVars, rows := [] } := by
    rw [(archEda_ok h).2.2]
  unfold updateArchive Gen.concat
  rw [hcol, hdt]
  have hdt2 : a.archive.dt = .float := by rw [ha]
  rw [hdt2]
  by_cases hcc : a.archive.cols = s1.elite.cols
  · rw [if_pos hcc, if_pos hcc]
    simp only
    rw [hall, hall]
  · rw [if_neg hcc, if_neg hcc]

/-! ### C38 over runs, C08 -/

/-- **C38** over runs of `EGNA`: from the second pass on the model contains every white-listed arc
and no black-listed one. -/
theorem C38_EGNA_run (hh : Honours lib) {e : Eda (List K) (BNet S L K) (Draws K)} {b : BNet S L K}
    (h : EGNA fl lib name cfg = .ok (e, b)) {pm : BNet S L K} (hp : Reused e b pm) {t : ℕ}
    {s : St (List K) C (BNet S L K)} (hv : Visited env e f ftol pm ρ t s) (ht : 2 ≤ t) :
    (∀ w, cfg.white = some w → ∀ x ∈ w, x ∈ s.pm.printStructure lib) ∧
    (∀ w, cfg.black = some w → ∀ x ∈ w, x ∉ s.pm.printStructure lib) := by
  have hmk := mkEda_ok (EGNA_ok h).1
  have hconf : ∀ {x}, Reused e b x → x.white = cfg.white ∧ x.black = cfg.black := by
    intro x hx
    induction hx with
    | fresh => rw [(EGNA_ok h).2.2]; exact ⟨rfl, rfl⟩
    | learned _ hu ih =>
      rw [hmk.updatePm] at hu
      obtain ⟨_, _, k3, k4⟩ := learn_config hu
      exact ⟨k3.trans ih.1, k4.trans ih.2⟩
  have hre : ∀ {t s}, Visited env e f ftol pm ρ t s → Reused e b s.pm := by
    intro t s hv
    refine visited_inv (fun s => Reused e b s.pm) ?_ ?_ hv
    · intro s0 h0
      obtain ⟨_, _, _, _, _, hs⟩ := start_ok h0
      rw [hs.pm]; exact hp
    · intro _ _ _ _ _ hi _ hst
      obtain ⟨_, _, _, _, _, _, hs⟩ := step_ok hst
      exact hi.learned hs.update
  cases hv with
  | first _ => omega
  | next hv hn hs =>
    obtain ⟨_, _, _, _, _, _, hst⟩ := step_ok hs
    have hu := hst.update
    rw [hmk.updatePm] at hu
    obtain ⟨q1, q2⟩ := hconf (hre hv)
    have := C38_lists hh hu
    rw [q1, q2] at this
    exact this

/-- **C38** over runs of `SPEDA` and `MultivariateKEDA`. -/
theorem C38_archive_run (hh : Honours lib) (h : archEda kind fl lib name (.int l) cfg = .ok (e, a))
    {pm : Arch S L K} (hp : Reused e a pm) {t : ℕ} {s : St (List K) C (Arch S L K)}
    (hv : Visited env e f ftol pm ρ t s) (ht : 2 ≤ t) :
    (∀ w, cfg.white = some w → ∀ x ∈ w, x ∈ s.pm.net.printStructure lib) ∧
    (∀ w, cfg.black = some w → ∀ x ∈ w, x ∉ s.pm.net.printStructure lib) := by
  have hre : ∀ {t s}, Visited env e f ftol pm ρ t s → Reused e a s.pm := by
    intro t s hv
    refine visited_inv (fun s => Reused e a s.pm) ?_ ?_ hv
    · intro s0 h0
      obtain ⟨_, _, _, _, _, hs⟩ := start_ok h0
      rw [hs.pm]; exact hp
    · intro _ _ _ _ _ hi _ hst
      obtain ⟨_, _, _, _, _, _, hs⟩ := step_ok hst
      exact hi.learned hs.update
  cases hv with
  | first _ => omega
  | next hv hn hs =>
    obtain ⟨_, _, _, _, _, _, hst⟩ := step_ok hs
    have hu := hst.update
    rw [archEda_updatePm h] at hu
    obtain ⟨⟨_, _, q1, q2, _⟩, _⟩ := C15_archive_reused h (hre hv)
    have := C38_lists hh (update_ok hu).learn
    rw [q1, q2, (archEda_ok h).2.2] at this
    exact this

/-- **C08** for `EGNA` without `init_data`. -/
theorem C08_EGNA [LawfulCost C] [UniformCost C] (hvd : env.Valid) (hsz : Sized lib)
    {e : Eda (List K) (BNet S L K) (Draws K)} {b pm : BNet S L K}
    (h : EGNA fl lib name cfg = .ok (e, b)) (hd : cfg.base.initData = none)
    {res : EdaResult (List K) C} {s : St (List K) C (BNet S L K)}
    (hrun : minimize env e f ftol pm ρ = .ok (res, s)) : res.nFev = s.log.flatten.length :=
  mkEda_nfev hvd (EGNA_ok h).1 hd (fun _ _ hg => (uniformInitSample_shape hg).2.2.2)
    (fun _ _ _ hg => (netSample_shape hg).2.2.2 hsz) hrun

/-- **C08** for `SPEDA` and `MultivariateKEDA` without `init_data`. -/
theorem C08_archive [LawfulCost C] [UniformCost C] (hvd : env.Valid) (hsz : Sized lib) {lv : Num K}
    (h : archEda kind fl lib name lv cfg = .ok (e, a)) {pm : Arch S L K}
    (hd : cfg.base.initData = none) {res : EdaResult (List K) C} {s : St (List K) C (Arch S L K)}
    (hrun : minimize env e f ftol pm ρ = .ok (res, s)) : res.nFev = s.log.flatten.length :=
  mkEda_nfev hvd (archEda_ok h).1 hd (fun _ _ hg => (uniformInitSample_shape hg).2.2.2)
    (fun _ _ _ hg => (netSample_shape hg).2.2.2 hsz) hrun

/-! ### C53 -/

theorem netSample_isOk {vars : List L} {q : ℕ} (hw : Works lib vars q) {b : BNet S L K}
    (hb : b.vars = vars) {size : ℤ} (hs : 0 ≤ size) (ω : Draws K) :
    ∃ g, b.sample lib size ω = .ok g := by
  obtain ⟨d, hd, hv⟩ := hw.sample b.pm size ω hs
  unfold BNet.sample
  rw [hd]
  dsimp only
  unfold Frame.select
  have : ∃ idx, b.vars.mapM (fun l => d.cols.idxOf? l) = some idx := by
    rw [hb]
    clear hb hw
    induction vars with
    | nil => exact ⟨[], rfl⟩
    | cons x xs ih =>
      obtain ⟨idx, hidx⟩ := ih (fun v hvx => hv v (by simp [hvx]))
      rw [List.mapM_cons, idxOf?_mem (hv x (by simp)), hidx]
      exact ⟨_, rfl⟩
  obtain ⟨idx, hidx⟩ := this
  rw [hidx]
  exact ⟨_, rfl⟩

theorem netLearn_isOk {vars : List L} {q : ℕ} (hw : Works lib vars q) {b : BNet S L K}
    (hb : b.vars = vars) {g : Gen (List K)} (hc : g.cols = vars.length) (hq : q ≤ g.rows.length)
    (ω : Draws K) : ∃ b', b.learn lib g 10 ω = .ok b' ∧ b'.vars = vars := by
  have key : ∃ b', b.learn lib g 10 ω = .ok b' := by
    unfold BNet.learn toFrame
    rw [hb, if_pos hc]
    dsimp only
    obtain ⟨pm, h1⟩ := hw.hc { cols := vars, rows := g.rows }
      (hcArgs b.kind (lib.new b.kind vars) 10 b.white b.black) ω rfl hq
    rw [h1]
    dsimp only
    obtain ⟨pm', h2⟩ := hw.fit pm { cols := vars, rows := g.rows } rfl hq
    rw [h2]
    dsimp only
    cases b.kind <;> exact ⟨_, rfl⟩
  obtain ⟨b', hb'⟩ := key
  exact ⟨b', hb', (learn_config hb').2.1.trans hb⟩

/-- **C53** for `EGNA`, if the network library never fails on the selected individuals. -/
theorem C53_EGNA_never_raises [LawfulCost C] [UniformCost C] (hvd : env.Valid) {m : ℕ}
    (hval : UniformValid env.cpu fl cfg.base cfg.lower cfg.upper m)
    (hw : Works lib ((List.range cfg.base.nVars).map name)
      (min (selLen fl cfg.base.sizeGen cfg.base.alpha).toNat m))
    (hnum : ∀ k r, IsNum (f k r)) :
    ∃ e b, EGNA fl lib name cfg = .ok (e, b) ∧
      ∃ res s, minimize env e f ftol b ρ = .ok (res, s) := by
  have hs0 : 0 ≤ cfg.base.sizeGen := by have := hval.size; omega
  obtain ⟨e, he⟩ := (mkEda_isOk (fl := fl) (cfg := cfg.base)
    (init := uniformInitSample fl cfg.base.nVars cfg.lower cfg.upper cfg.base.sizeGen)
    (learn := fun (b : BNet S L K) g _ ω => b.learn lib g 10 ω)
    (sample := fun b ω => b.sample lib cfg.base.sizeGen ω)).2
    ⟨hval.dead, fun d hd => (hval.data d hd).1.cols⟩
  obtain ⟨u, hu⟩ := (uniformInit_isOk (fl := fl) hval.lower hval.upper hs0).1
  refine ⟨e, BNet.new lib .gaussian ((List.range cfg.base.nVars).map name) cfg.white cfg.black,
    by unfold EGNA; rw [he]; simp only [hu], ?_⟩
  refine minimize_progress hvd (mkEda_noRaise (ρ := ρ) env.cpu he hval.pos hval.cpu hval.trunc
    hval.noise hval.data ?_ (P := fun b => b.vars = (List.range cfg.base.nVars).map name) ?_ ?_)
    hnum rfl
  · intro _
    obtain ⟨g, hg⟩ := (uniformInit_isOk (fl := fl) hval.lower hval.upper hs0).2 ρ.init
    obtain ⟨h1, h2, h3, h4⟩ := uniformInitSample_shape hg
    have := hval.size
    exact ⟨g, hg, ⟨h2, h3, by rw [h1]; simp, fun _ => h1⟩, by omega⟩
  · intro pm g el t hP h1 _ h3 h4 _
    exact netLearn_isOk hw hP (by simp [h1]) h4 _
  · intro pm t hP
    obtain ⟨g, hg⟩ := netSample_isOk hw hP hs0 (ρ.sample t)
    obtain ⟨h1, h2, h3, h4⟩ := netSample_shape hg
    have := h4 hw.sized
    have := hval.size
    rw [hP, List.length_map, List.length_range] at h2 h3
    exact ⟨g, hg, ⟨h2, h3, by rw [h1]; simp, fun _ => h1⟩, by omega⟩

/-- **C53** for `SPEDA` and `MultivariateKEDA` with `l ≥ 1`, if the network library never fails on at
least as many individuals as the elite of the first pass. -/
theorem C53_archive_never_raises [LawfulCost C] [UniformCost C] (hvd : env.Valid) {m : ℕ}
    (hval : UniformValid env.cpu fl cfg.base cfg.lower cfg.upper m) (hl : 1 ≤ l)
    (hw : Works lib ((List.range cfg.base.nVars).map name)
      (min (selLen fl cfg.base.sizeGen cfg.base.alpha).toNat m))
    (hnum : ∀ k r, IsNum (f k r)) :
    ∃ e a, archEda kind fl lib name (.int l) cfg = .ok (e, a) ∧
      ∃ res s, minimize env e f ftol a ρ = .ok (res, s) := by
  have hs0 : 0 ≤ cfg.base.sizeGen := by have := hval.size; omega
  have htr := hval.trunc
  obtain ⟨e, he⟩ := (mkEda_isOk (fl := fl) (cfg := { cfg.base with eliteFactor := cfg.base.alpha })
    (init := uniformInitSample fl cfg.base.nVars cfg.lower cfg.upper cfg.base.sizeGen)
    (learn := fun (a : Arch S L K) _ elite ω =>
      a.update lib (archLen fl (.int l) cfg.base.sizeGen cfg.base.alpha) elite ω)
    (sample := fun a ω => a.net.sample lib cfg.base.sizeGen ω)).2
    ⟨hval.dead, fun d hd => (hval.data d hd).1.cols⟩
  obtain ⟨u, hu⟩ := (uniformInit_isOk (fl := fl) hval.lower hval.upper hs0).1
  refine ⟨e, { net := BNet.new lib kind ((List.range cfg.base.nVars).map name) cfg.white cfg.black
               archive := { dt := .float, cols := cfg.base.nVars, rows := [] } },
    by unfold archEda; rw [he]; simp only [hu], ?_⟩
  refine minimize_progress hvd (mkEda_noRaiseE (ρ := ρ) env.cpu he hval.pos hval.cpu hval.trunc
    hval.noise (fun d hd => ?_) ?_ (P := fun b => b.net.vars = (List.range cfg.base.nVars).map name ∧
      b.archive.cols = cfg.base.nVars) ?_ ?_)
    hnum ⟨rfl, rfl⟩
  · obtain ⟨h1, h2⟩ := hval.data d hd
    exact ⟨⟨h1.cols, h1.rect, h1.dt, h1.fl⟩, h2⟩
  · intro _
    obtain ⟨g, hg⟩ := (uniformInit_isOk (fl := fl) hval.lower hval.upper hs0).2 ρ.init
    obtain ⟨h1, h2, h3, h4⟩ := uniformInitSample_shape hg
    have := hval.size
    exact ⟨g, hg, ⟨h2, h3, by rw [h1]; simp, fun _ => h1⟩, by omega⟩
  · rintro b g el t ⟨hP, hcol⟩ _ _ _ _ hel ⟨k, hk, hlen⟩
    unfold Arch.update updateArchive Gen.concat
    rw [if_pos (by rw [hcol, hel.cols])]
    simp only [archLen]
    have hrows : min (selLen fl cfg.base.sizeGen cfg.base.alpha).toNat m ≤
        (sliceFrom (b.archive.rows ++ el.rows)
          (-(l * selLen fl cfg.base.sizeGen cfg.base.alpha))).length := by
      rw [sliceFrom_neg _ (by nlinarith), lastN_length, List.length_append, hlen]
      unfold sliceLen
      simp only at hlen ⊢
      rw [if_pos (by omega)]
      have : (selLen fl cfg.base.sizeGen cfg.base.alpha).toNat ≤
          (l * selLen fl cfg.base.sizeGen cfg.base.alpha).toNat :=
        Int.toNat_le_toNat (by nlinarith)
      omega
    obtain ⟨n', hn', hv'⟩ := netLearn_isOk hw hP
      (g := { dt := b.archive.dt.promote el.dt, cols := b.archive.cols, rows :=
        sliceFrom (b.archive.rows ++ el.rows) (-(l * selLen fl cfg.base.sizeGen cfg.base.alpha)) })
      (by simp [hcol]) hrows (ρ.learn t)
    rw [hn']
    exact ⟨_, rfl, hv', hcol⟩
  · rintro b t ⟨hP, _⟩
    obtain ⟨g, hg⟩ := netSample_isOk hw hP hs0 (ρ.sample t)
    obtain ⟨h1, h2, h3, h4⟩ := netSample_shape hg
    have := h4 hw.sized
    have := hval.size
    rw [hP, List.length_map, List.length_range] at h2 h3
    exact ⟨g, hg, ⟨h2, h3, by rw [h1]; simp, fun _ => h1⟩, by omega⟩

end

/-! ### Concrete cases -/

namespace Ex

/-- A network library for one variable: it remembers the data and simulates `first value - 1`. -/
def alib : NetLib (List (List ℚ)) ℕ ℚ (Draws ℚ) where
  new := fun _ _ => []
  hc := fun _ args _ => .ok (args.start.getD [])
  fit := fun _ d => .ok d.rows
  sample := fun s n _ => if n < 0 then .error .valueError else
    .ok { cols := [0], rows := List.replicate n.toNat [(s.getD 0 []).getD 0 0 - 1] }
  arcs := fun _ => []
  topSort := fun _ => [0]
  cpd := fun _ _ => ⟨[], [0], 1⟩

theorem alib_works (q : ℕ) : Works alib [0] q where
  hc := by intro data args ω _ _; exact ⟨_, rfl⟩
  fit := by intro pm data _ _; exact ⟨_, rfl⟩
  sample := by
    intro pm n ω hn
    refine ⟨{ cols := [0], rows := List.replicate n.toNat [(pm.getD 0 []).getD 0 0 - 1] }, ?_, ?_⟩
    · simp only [alib]; rw [if_neg (by omega)]
    · intro v hv; exact hv
  sized := by
    intro pm n ω d h
    simp only [alib] at h
    split at h
    · cases h
    · cases h; simp; omega

/-- Four individuals of one variable, two are selected, noise 1/2. -/
def acfg : NetCfg ℚ ℕ :=
  { base := { sizeGen := 4, maxIter := 4, deadIter := 4, nVars := 1, alpha := 1/2,
              eliteFactor := 0, parallel := true, initData := none, wNoise := some (1/2) }
    lower := .scalar 0, upper := .list [4], white := none, black := none }

theorem acfg_valid : UniformValid env.cpu id acfg.base acfg.lower acfg.upper 4 where
  dead := by decide
  size := by decide
  pos := by decide
  trunc := by decide +kernel
  cpu := by decide
  noise := .inr (by decide +kernel)
  lower := trivial
  upper := rfl
  data := by intro d hd; simp [acfg] at hd

/-- The cost is the value itself. -/
def acost : ℕ → List ℚ → ℚ := fun _ r => r.getD 0 0

/-- First generation 0, 1, 2, 3. -/
def arand : Rand (Draws ℚ) :=
  { init := fun i _ => i / 4, noise := fun _ _ => 1/3, learn := fun _ _ _ => 0,
    sample := fun _ _ _ => 0 }

/-- A run of `SPEDA` with `l`: the model state at the head of pass `n + 1`. -/
def arun (l : ℤ) (n : ℕ) : Except PyErr (St (List ℚ) ℚ (Arch (List (List ℚ)) ℕ ℚ)) :=
  match SPEDA id alib id (.int l) acfg with
  | .error err => .error err
  | .ok (e, a) => heads env e acost 0 a arand n

end Ex

/-- **C16** is false for `l = 0`: the archive should have no rows, but it has four after two
passes. -/
theorem C16_refuted : ∃ e a s, SPEDA id Ex.alib id (.int 0) Ex.acfg = .ok (e, a) ∧
    Visited Ex.env e Ex.acost 0 a Ex.arand 3 s ∧ s.pm.archive.rows.length = 4 ∧
    (4 : ℤ) > 0 * selLen id Ex.acfg.base.sizeGen Ex.acfg.base.alpha := by
  obtain ⟨⟨e, a⟩, hea⟩ := Ex.ok_of_isSome
    (show (SPEDA id Ex.alib id (.int 0) Ex.acfg).toOption.isSome = true by decide +kernel)
  have hr : (Ex.arun 0 2).toOption.map (fun s => s.pm.archive.rows.length) = some 4 := by
    decide +kernel
  unfold Ex.arun at hr
  rw [hea] at hr
  obtain ⟨s, hs, h4⟩ := Ex.facts_of hr
  exact ⟨e, a, s, hea, Ex.heads_visited hs, h4, by simp⟩

/-- C16 for `l = 2`: after three passes the archive holds the elites of the last two, `[-1, -1]` and
`[-1, -1]`, not that of the first.  The first elite is `[0, 0]`, not `[0, 1]`: the elite kept since
`start` is selected again together with the generation it came from. -/
example : ((Ex.arun 2 1).map (fun s => s.pm.archive.rows) = .ok [[0], [0]]) ∧
    ((Ex.arun 2 2).map (fun s => s.pm.archive.rows) = .ok [[0], [0], [-1], [-1]]) ∧
    ((Ex.arun 2 3).map (fun s => s.pm.archive.rows) = .ok [[-1], [-1], [-1], [-1]]) := by
  decide +kernel

/-- The hypotheses of the C16 theorems are met by that run. -/
example : ∃ e a s, SPEDA id Ex.alib id (.int 2) Ex.acfg = .ok (e, a) ∧
    Visited Ex.env e Ex.acost 0 a Ex.arand 4 s ∧
    ∃ els, EliteSeq Ex.env e Ex.acost 0 a Ex.arand 4 els ∧
      s.pm.archive.rows = ((lastN 2 els).map (fun g => g.rows)).flatten ∧
      ∀ g ∈ els, (g.rows.length : ℤ) = 2 := by
  obtain ⟨⟨e, a⟩, hea⟩ := Ex.ok_of_isSome
    (show (SPEDA id Ex.alib id (.int 2) Ex.acfg).toOption.isSome = true by decide +kernel)
  have hr : (Ex.arun 2 3).toOption.isSome = true := by decide +kernel
  unfold Ex.arun at hr
  rw [hea] at hr
  obtain ⟨s, hs⟩ := Ex.ok_of_isSome hr
  refine ⟨e, a, s, hea, Ex.heads_visited hs, ?_⟩
  have hsel : selLen id Ex.acfg.base.sizeGen Ex.acfg.base.alpha = 2 := by decide +kernel
  have := C16_generations_partial Ex.env_valid (Ex.alib_works 0).sized hea (by decide)
    (by rw [hsel]; decide) (by rw [hsel]; decide) (by intro d hd; simp [Ex.acfg] at hd)
    (Ex.heads_visited hs)
  rw [hsel] at this
  exact this

/-- C53, C08, C59 for `MultivariateKEDA`: with any draws the run returns, counts its evaluations, and
returns the same without noise. -/
example (ρ : Rand (Draws ℚ)) (noise0 : Draws ℚ) : ∃ e a, MultivariateKEDA id Ex.alib id (.int 2)
      Ex.acfg = .ok (e, a) ∧ ∃ res s, minimize Ex.env e Ex.acost 0 a ρ = .ok (res, s) ∧
      res.nFev = s.log.flatten.length ∧
      ∃ e0, MultivariateKEDA id Ex.alib id (.int 2)
        { Ex.acfg with base := { Ex.acfg.base with wNoise := none } } = .ok (e0, a) ∧
        minimize Ex.env e0 Ex.acost 0 a { ρ with noise := noise0 } = .ok (res, s) := by
  have hr : (List.range Ex.acfg.base.nVars).map id = [0] := rfl
  obtain ⟨e, a, hea, res, s, hrun⟩ := C53_archive_never_raises (kind := .kde) (fl := id)
    (lib := Ex.alib) (name := id) (l := 2) (cfg := Ex.acfg) (f := Ex.acost) (ftol := (0 : ℚ)) (ρ := ρ)
    Ex.env_valid Ex.acfg_valid (by decide) (by rw [hr]; exact Ex.alib_works _)
    (fun _ _ => field_isNum _)
  obtain ⟨⟨e0, a0⟩, hea0⟩ := Ex.ok_of_isSome
    (show (MultivariateKEDA id Ex.alib id (.int 2)
      { Ex.acfg with base := { Ex.acfg.base with wNoise := none } }).toOption.isSome = true by
      decide +kernel)
  obtain ⟨h1, h2⟩ := C59_noise_irrelevant hea hea0 noise0 hrun
  subst h1
  exact ⟨e, a0, hea, res, s, hrun, C08_archive Ex.env_valid (Ex.alib_works 0).sized hea rfl hrun,
    e0, hea0, h2⟩

/-- C53 for `EGNA`. -/
example (ρ : Rand (Draws ℚ)) : ∃ e b, EGNA id Ex.alib id Ex.acfg = .ok (e, b) ∧
    ∃ res s, minimize Ex.env e Ex.acost 0 b ρ = .ok (res, s) :=
  C53_EGNA_never_raises Ex.env_valid Ex.acfg_valid (Ex.alib_works _) (fun _ _ => field_isNum _)

/-- **C15** is false for `SPEDA`: the same object, the same cost function and the same draws give a
best cost of -2 in the first run and -3 in the second. -/
theorem C15_archive_refuted : ∃ e a res s res', SPEDA id Ex.alib id (.int 2) Ex.acfg = .ok (e, a) ∧
    minimize Ex.env e Ex.acost 0 a Ex.arand = .ok (res, s) ∧
    (minimize Ex.env e Ex.acost 0 s.pm Ex.arand).map (fun x => x.1.bestCost) = .ok res' ∧
    res.bestCost = -2 ∧ res' = -3 := by
  have h : ((SPEDA id Ex.alib id (.int 2) Ex.acfg).toOption.map (fun x =>
      (minimize Ex.env x.1 Ex.acost 0 x.2 Ex.arand).toOption.map (fun y =>
        (y.1.bestCost, (minimize Ex.env x.1 Ex.acost 0 y.2.pm Ex.arand).toOption.map
          (fun z => z.1.bestCost))))) = some (some (-2, some (-3))) := by decide +kernel
  obtain ⟨⟨e, a⟩, hea, h⟩ := Ex.facts_of h
  obtain ⟨⟨res, s⟩, hr, h⟩ := Ex.facts_of h
  simp only [Prod.mk.injEq] at h
  obtain ⟨z, hz, h2⟩ := Ex.facts_of h.2
  exact ⟨e, a, res, s, -3, hea, hr, by rw [hz]; simp [Except.map, h2], h.1, rfl⟩

end Verif
