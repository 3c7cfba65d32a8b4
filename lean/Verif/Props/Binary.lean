/-
The binary algorithm: C20-C23 and the UMDAd parts of C08, C15, C53.
-/
import Verif.Lemmas.UniBin
import Verif.Lemmas.Reuse
import Verif.Lemmas.Loop
import Verif.Model.Examples

set_option linter.unusedSectionVars false

namespace Verif

open Spec

variable {K : Type} [Field K] [LinearOrder K]

section learn

/-- **C20** after `learn` on a non-empty dataset with `n` columns, the probability of variable `j`
is the mean of column `j` (the fraction of ones), rounded and clipped to the bounds. -/
theorem C20_learn_frequencies {fl : K → K} {b b' : UniBin K} {data : List (List K)} {n : ℕ}
    (hb : b.lb < b.ub) (hr : Rect n data) (h : b.learn fl data = .ok b') :
    b'.p.length = n ∧ b'.lb = b.lb ∧ b'.ub = b.ub ∧ b'.n = b.n ∧
    ∀ j < n, b'.p[j]? = some (clip b.lb b.ub (fl (mean (col data j)))) := by
  obtain ⟨hne, h1, h2, h3, h4⟩ := UniBin.learn_ok h
  obtain ⟨c1, c2⟩ := colSums_spec hne hr
  refine ⟨by rw [h4, clipProbs_length, List.length_map, c1], h2, h3, h1, ?_⟩
  intro j hj
  rw [h4, clipProbs_getElem? _ _ _ _ hb.le, List.getElem?_map]
  have : (colSums data)[j]? = some ((colSums data).getD j 0) := by
    rw [List.getD_eq_getElem?_getD, List.getElem?_eq_getElem (by omega)]; rfl
  rw [this, c2]
  simp [mean, col]

/-- **C20** the only failure: an empty dataset is a `ZeroDivisionError`. -/
theorem C20_learn_total (fl : K → K) (b : UniBin K) (data : List (List K)) :
    (data = [] ∧ b.learn fl data = .error .zeroDivision) ∨
    (data ≠ [] ∧ ∃ b', b.learn fl data = .ok b') := by
  cases data with
  | nil => exact .inl ⟨rfl, rfl⟩
  | cons r rs => exact .inr ⟨by simp, _, rfl⟩

/-- The fraction of ones of a binary column is in `[0,1]`, so bounds `0` and `1` do not clip. -/
theorem C20_no_clipping [IsStrictOrderedRing K] {fl : K → K} (hfl : Monotone fl) (hfl0 : fl 0 = 0)
    (hfl1 : fl 1 = 1) {data : List (List K)} {j : ℕ} (hne : data ≠ [])
    (hb : ∀ r ∈ data, r.getD j 0 = 0 ∨ r.getD j 0 = 1) :
    clip 0 1 (fl (mean (col data j))) = fl (mean (col data j)) := by
  have hpos : (0 : K) < data.length := by
    have : 0 < data.length := List.length_pos_iff.2 hne
    exact_mod_cast this
  have key : 0 ≤ (col data j).sum ∧ (col data j).sum ≤ data.length := by
    unfold col
    clear hpos hne
    induction data with
    | nil => simp
    | cons r rs ih =>
      have ih := ih (fun x hx => hb x (by simp [hx]))
      simp only [List.map_cons, List.sum_cons, List.length_cons, Nat.cast_add, Nat.cast_one]
      rcases hb r (by simp) with h | h <;> rw [h] <;> constructor <;> linarith
  have h0 : 0 ≤ mean (col data j) := by
    unfold mean; exact div_nonneg key.1 (Nat.cast_nonneg _)
  have h1 : mean (col data j) ≤ 1 := by
    unfold mean
    rw [div_le_one (by simpa [col] using hpos)]
    simpa [col] using key.2
  unfold clip
  rw [min_eq_right (hfl1 ▸ hfl h1), max_eq_right (hfl0 ▸ hfl h0)]

example : ∃ b' : UniBin ℚ, UniBin.learn id ({ n := 2, lb := 1/5, ub := 4/5, p := [0, 0] } : UniBin ℚ)
    [[1, 1], [0, 1], [1, 1], [0, 1]] = .ok b' ∧ b'.p = [1/2, 4/5] := ⟨_, rfl, by decide +kernel⟩

end learn

section sample

/-- **C21** `sample(size)` gives `size` rows of `n` zeros and ones (integers). -/
theorem C21_sample_binary {b : UniBin K} {size : ℤ} {ω : Draws K} {g : Gen (List K)}
    (hp : b.p.length = b.n) (h : b.sample size ω = .ok g) :
    (g.rows.length : ℤ) = size ∧ g.cols = b.n ∧ g.dt = .int ∧ ∀ r ∈ g.rows, BinaryRow b.n r := by
  obtain ⟨h1, h2, h3, h4, h5⟩ := UniBin.sample_ok h
  have h4 : g.cols = b.n := by rw [h4, hp, ite_self]
  refine ⟨h3, h4, h2, ?_⟩
  intro r hr
  rw [h5, h4] at hr
  obtain ⟨i, _, rfl⟩ := List.mem_map.1 hr
  exact binRow_binary _ _ _ _

/-- **C21** `sample` fails only for a negative size (probability vector of the right length). -/
theorem C21_sample_total {b : UniBin K} (size : ℤ) (ω : Draws K) (hp : b.p.length = b.n) :
    (size < 0 ∧ b.sample size ω = .error .valueError) ∨
    (0 ≤ size ∧ ∃ g, b.sample size ω = .ok g) := by
  rcases lt_or_ge size 0 with h | h
  · left; exact ⟨h, by unfold UniBin.sample; rw [if_pos h]⟩
  · right; exact ⟨h, _, UniBin.sample_of_length hp h⟩

/-- **C21** certain bits: probability at least 1 gives always 1, at most 0 gives always 0. -/
theorem C21_certain_bits {b : UniBin K} {size : ℤ} {ω : Draws K} {g : Gen (List K)}
    (hω : Unit01 ω) (hp : b.p.length = b.n) (h : b.sample size ω = .ok g) {j : ℕ} {x : K}
    (hx : b.p[j]? = some x) :
    (1 ≤ x → ∀ r ∈ g.rows, r[j]? = some 1) ∧ (x ≤ 0 → ∀ r ∈ g.rows, r[j]? = some 0) := by
  obtain ⟨h1, h2, h3, h4, h5⟩ := UniBin.sample_ok h
  have h4 : g.cols = b.n := by rw [h4, hp, ite_self]
  have hj : j < b.p.length := (List.getElem?_eq_some_iff.1 hx).1
  have hidx : b.p.getD (if b.p.length = 1 then 0 else j) 0 = x := by
    have : (if b.p.length = 1 then 0 else j) = j := by split <;> omega
    rw [this, List.getD_eq_getElem?_getD, hx]; rfl
  constructor
  · intro hx1 r hr
    rw [h5, h4] at hr
    obtain ⟨i, _, rfl⟩ := List.mem_map.1 hr
    rw [binRow_getElem? _ _ _ _ _ (by omega), hidx, if_pos ((hω _ _).2.trans_le hx1)]
  · intro hx0 r hr
    rw [h5, h4] at hr
    obtain ⟨i, _, rfl⟩ := List.mem_map.1 hr
    rw [binRow_getElem? _ _ _ _ _ (by omega), hidx, if_neg (not_lt.2 (hx0.trans (hω _ _).1))]

/-- Draws that make a model with probabilities strictly between 0 and 1 produce given rows. -/
def drawsFor (p : List K) (target : List (List K)) : Draws K :=
  fun i j => if (target.getD i []).getD j 0 = 1 then 0 else p.getD j 0

/-- **C21** a model whose probabilities are all strictly between 0 and 1 can produce every
binary generation. -/
theorem C21_full_support [IsStrictOrderedRing K] {b : UniBin K} (hp : b.p.length = b.n)
    (h01 : ∀ x ∈ b.p, 0 < x ∧ x < 1) (target : List (List K)) (ht : ∀ r ∈ target, BinaryRow b.n r) :
    ∃ ω : Draws K, Unit01 ω ∧ b.sample target.length ω =
        .ok { dt := .int, cols := b.n, rows := target } := by
  have hone : (0 : K) < 1 := one_pos
  refine ⟨drawsFor b.p target, ?_, ?_⟩
  · intro i j
    unfold drawsFor
    split
    · exact ⟨le_refl 0, hone⟩
    · rw [List.getD_eq_getElem?_getD]
      cases hx : b.p[j]? with
      | none => exact ⟨le_refl 0, hone⟩
      | some x =>
        have := h01 x (List.mem_of_getElem? hx)
        exact ⟨this.1.le, this.2⟩
  · rw [UniBin.sample_of_length hp (by omega)]
    congr 2
    apply List.ext_getElem?
    intro i
    simp only [Int.toNat_natCast, List.getElem?_map]
    rcases Nat.lt_or_ge i target.length with hi | hi
    · rw [List.getElem?_range hi, List.getElem?_eq_getElem hi]
      simp only [Option.map_some, Option.some.injEq]
      obtain ⟨hl, hbin⟩ := ht _ (List.getElem_mem hi)
      apply List.ext_getElem?
      intro j
      rcases Nat.lt_or_ge j b.n with hj | hj
      · rw [binRow_getElem? _ _ _ _ _ hj]
        have e1 : (if b.n = 1 then 0 else j) = j := by split <;> omega
        have e2 : (if b.p.length = 1 then 0 else j) = j := by split <;> omega
        have hjl : j < target[i].length := by omega
        rw [e1, e2, List.getElem?_eq_getElem hjl]
        have hd : (target.getD i []).getD j 0 = target[i][j] := by
          rw [List.getD_eq_getElem?_getD, List.getD_eq_getElem?_getD, List.getElem?_eq_getElem hi]
          simp [List.getElem?_eq_getElem hjl]
        have hx := h01 _ (List.getElem_mem (l := b.p) (n := j) (by omega))
        have hpd : b.p.getD j 0 = b.p[j]'(by omega) := by
          rw [List.getD_eq_getElem?_getD, List.getElem?_eq_getElem (by omega)]; rfl
        congr 1
        unfold drawsFor
        rw [hd]
        rcases hbin _ (List.getElem_mem hjl) with hz | hz
        · rw [hz, if_neg (zero_ne_one), if_neg (lt_irrefl _)]
        · rw [hz, if_pos rfl, hpd, if_pos hx.1]
      · rw [List.getElem?_eq_none (by rw [binRow_length]; omega), List.getElem?_eq_none (by omega)]
    · rw [List.getElem?_eq_none (by simpa using hi), List.getElem?_eq_none hi]; rfl

/-- A model with probabilities 1 (certain), 0 (impossible) and 1/2. -/
example : ∃ g : Gen (List ℚ), UniBin.sample ({ n := 3, lb := 0, ub := 1, p := [1, 0, 1/2] } : UniBin ℚ)
    2 (fun i _ => if i = 0 then 1/4 else 3/4) = .ok g ∧ g.rows = [[1, 0, 1], [1, 0, 0]] :=
  ⟨_, rfl, by decide +kernel⟩

end sample

section run
variable [FloorRing K] {fl : K → K} {cfg : UMDAdCfg K} {e : Eda (List K) (UniBin K) (Draws K)}
variable {b : UniBin K} {C : Type} [PyCost C] {env : Env C} {f : ℕ → List K → C} {ftol : C}
variable {ρ : Rand (Draws K)}

/-- One step of the fixation argument: selected individuals that all have bit `v` at position `j`
give a model that only samples bit `v` at position `j`. -/
theorem fix_step [IsStrictOrderedRing K] (hfl0 : fl 0 = 0) (hfl1 : fl 1 = 1) {b b' : UniBin K} {g g' : Gen (List K)} {size : ℤ}
    {ω : Draws K} (hω : Unit01 ω) {j : ℕ} (hj : j < b.n) (hlb : b.lb = 0) (hub : b.ub = 1)
    {v : K} (hv01 : v = 0 ∨ v = 1)
    (hl : b.learn fl g.rows = .ok b') (hag : ∀ r ∈ g.rows, r[j]? = some v)
    (hs : b'.sample size ω = .ok g') : ∀ r ∈ g'.rows, r[j]? = some v := by
  obtain ⟨hne, hn, _, _, hp⟩ := UniBin.learn_ok hl
  have hlen : (g.rows.length : K) ≠ 0 := by
    have : 0 < g.rows.length := List.length_pos_iff.2 hne
    exact_mod_cast this.ne'
  have hpj : b'.p[j]? = some v := by
    rw [hp, clipProbs_getElem? _ _ _ _ (by rw [hlb, hub]; exact zero_le_one), List.getElem?_map,
      colSums_const hne hag]
    simp only [Option.map_some, Option.some.injEq]
    rw [mul_div_assoc, mul_comm, div_mul_cancel₀ _ hlen, hlb, hub]
    have hflv : fl v = v := by rcases hv01 with rfl | rfl <;> assumption
    rw [hflv]
    unfold clip
    rcases hv01 with rfl | rfl <;> simp
  obtain ⟨h1, h2, h3, h4, h5⟩ := UniBin.sample_ok hs
  have hjp : j < b'.p.length := (List.getElem?_eq_some_iff.1 hpj).1
  have hjc : j < g'.cols := by
    rw [h4]
    split
    · omega
    · exact hjp
  have hidx : b'.p.getD (if b'.p.length = 1 then 0 else j) 0 = v := by
    have : (if b'.p.length = 1 then 0 else j) = j := by split <;> omega
    rw [this, List.getD_eq_getElem?_getD, hpj]; rfl
  intro r hr
  rw [h5] at hr
  obtain ⟨i, _, rfl⟩ := List.mem_map.1 hr
  rw [binRow_getElem? _ _ _ _ _ hjc, hidx]
  rcases hv01 with rfl | rfl
  · rw [if_neg (not_lt.2 (hω _ _).1)]
  · rw [if_pos (hω _ _).2]

/-- **C22** `UMDAd` with bounds 0 and 1: once all selected individuals of some iteration `t` have
the same bit `v` at position `j`, every individual of every later generation has bit `v` there.  The
rounding has to be exact for 0 and 1. -/
theorem C22_fixed_bits_stay_fixed [IsStrictOrderedRing K] (hv : env.Valid) (hfl0 : fl 0 = 0)
    (hfl1 : fl 1 = 1)
    (h : UMDAd fl cfg = .ok (e, b)) (hlo : cfg.lower = 0) (hup : cfg.upper = 1)
    (he : 0 ≤ e.eliteLen) (het : e.eliteLen ≤ e.truncLen) (hω : ∀ t, Unit01 (ρ.sample t))
    {j : ℕ} (hj : j < cfg.base.nVars) {v : K} (hv01 : v = 0 ∨ v = 1)
    {t : ℕ} {s s1 : St (List K) C (UniBin K)} (hvis : Visited env e f ftol b ρ t s)
    (htr : truncation env e s = .ok s1) (hag : ∀ r ∈ s1.gen.rows, r[j]? = some v)
    {t' : ℕ} {s' s'' : St (List K) C (UniBin K)} {brk : Bool}
    {nz : Gen (List K) → Except PyErr (Gen (List K))} (ht : t ≤ t')
    (hvis' : Visited env e f ftol b ρ t' s') (hnz : e.mkNoise ρ.noise = .ok nz)
    (hst : step env e f ftol ρ nz t' s' = .ok (s'', brk)) :
    ∀ r ∈ s''.gen.rows, r[j]? = some v := by
  obtain ⟨hm, _, hb⟩ := UMDAd_ok h
  -- invariant: bounds unchanged and everything selected next has the bit
  let Inv : St (List K) C (UniBin K) → Prop := fun s =>
    (s.pm.n = cfg.base.nVars ∧ s.pm.lb = 0 ∧ s.pm.ub = 1) ∧
    ∀ s1, truncation env e s = .ok s1 → ∀ r ∈ s1.gen.rows, r[j]? = some v
  have hpm : ∀ {t s}, Visited env e f ftol b ρ t s →
      s.pm.n = cfg.base.nVars ∧ s.pm.lb = 0 ∧ s.pm.ub = 1 := by
    intro t s hvs
    refine visited_inv (fun s => s.pm.n = cfg.base.nVars ∧ s.pm.lb = 0 ∧ s.pm.ub = 1) ?_ ?_ hvs
    · intro s0 h0
      obtain ⟨_, _, _, _, _, hs⟩ := start_ok h0
      rw [hs.pm, hb]; exact ⟨rfl, hlo, hup⟩
    · intro noise t s s' b' hi _ hst
      obtain ⟨_, noisy, _, _, _, _, hs⟩ := step_ok hst
      have := hs.update
      rw [hm.updatePm] at this
      obtain ⟨_, h1, h2, h3, _⟩ := UniBin.learn_ok this
      rw [h1, h2, h3]; exact hi
  have key : ∀ {t s s' nz b'}, Inv s → Visited env e f ftol b ρ t s → e.mkNoise ρ.noise = .ok nz →
      step env e f ftol ρ nz t s = .ok (s', b') →
      (∀ r ∈ s'.gen.rows, r[j]? = some v) ∧ (∀ r ∈ s'.elite.rows, r[j]? = some v) := by
    intro t s s' nz b' hi hvs hnz hst
    obtain ⟨s1, noisy, _, _, _, _, hs⟩ := step_ok hst
    have hsel := hi.2 s1 hs.trunc
    have hny := UMDAd_noise h hnz hs.noise
    have hu := hs.update
    rw [hm.updatePm, hny] at hu
    have hsm := hs.sample
    rw [hm.sample] at hsm
    refine ⟨fix_step hfl0 hfl1 (hω t) (by rw [hi.1.1]; exact hj) hi.1.2.1 hi.1.2.2 hv01 hu hsel hsm, ?_⟩
    rw [hs.elite]
    intro r hr
    exact hsel r (truncation_elite_subset hv (visited_aligned hv hvs) hs.trunc he het r hr)
  have hinv : Inv s' := by
    refine visited_from hvis Inv ⟨hpm hvis, ?_⟩ ?_ hvis' ht
    · intro s2 h2
      rw [htr] at h2
      obtain rfl := Except.ok.inj h2
      exact hag
    · intro nz t s s' hi hvs hnz hst
      obtain ⟨k1, k2⟩ := key hi hvs hnz hst
      have hvs' : Visited env e f ftol b ρ (t + 1) s' := .next hvs hnz hst
      refine ⟨hpm hvs', ?_⟩
      intro s2 h2 r hr
      rcases (truncation_rows hv (visited_aligned hv hvs') h2).1 r hr with h | h
      · exact k1 r h
      · exact k2 r h
  exact (key hinv hvis' hnz hst).1

/-- The concrete run: at the second pass both selected individuals are `[1,1]`, so all four
individuals of the next generation are `[1,1]`. -/
example : ∃ s s1 s'' nz brk, Visited Ex.env Ex.eda01 Ex.cost 0 Ex.pm01 Ex.rand 2 s ∧
    truncation Ex.env Ex.eda01 s = .ok s1 ∧ (∀ r ∈ s1.gen.rows, r[0]? = some 1) ∧
    step Ex.env Ex.eda01 Ex.cost 0 Ex.rand nz 2 s = .ok (s'', brk) ∧ s''.gen.rows.length = 4 ∧
    ∀ r ∈ s''.gen.rows, r[0]? = some 1 := by
  have h1 := Ex.sel01_facts
  have h2 := Ex.step01_facts
  unfold Ex.sel01 at h1
  unfold Ex.step01 at h2
  cases hh : Ex.heads Ex.env Ex.eda01 Ex.cost 0 Ex.pm01 Ex.rand 1 with
  | error err => rw [hh] at h1; simp [Except.toOption] at h1
  | ok s =>
    cases hn : Ex.eda01.mkNoise Ex.rand.noise with
    | error err => rw [hh, hn] at h2; simp [Except.toOption] at h2
    | ok nz =>
      rw [hh] at h1; rw [hh, hn] at h2
      obtain ⟨s1, a1, a2⟩ := Ex.facts_of h1
      obtain ⟨⟨s'', brk⟩, b1, b2⟩ := Ex.facts_of h2
      have hag : ∀ r ∈ s1.gen.rows, r[0]? = some 1 := by rw [a2]; decide +kernel
      have hv := Ex.heads_visited hh
      refine ⟨s, s1, s'', nz, brk, hv, a1, hag, b1, by rw [b2]; rfl, ?_⟩
      exact C22_fixed_bits_stay_fixed Ex.env_valid rfl rfl Ex.cfg01_ok rfl rfl (by decide +kernel)
        (by decide +kernel) (fun t i j => Ex.rand_unit t i j) (by decide) (.inr rfl) hv a1 hag
        (le_refl _) hv hn b1

/-- Well-formed arguments: the probability vector has one entry per variable and `init_data` is a
rectangular array (as every numpy array is). -/
structure UMDAdCfg.WF (cfg : UMDAdCfg K) : Prop where
  vector : ∀ v, cfg.vector = some v → v.length = cfg.base.nVars
  data : ∀ d, cfg.base.initData = some d → Rect d.cols d.rows

theorem umdadInit_length {cfg : UMDAdCfg K} (hw : cfg.WF) :
    (umdadInit cfg).p.length = cfg.base.nVars ∧ (umdadInit cfg).n = cfg.base.nVars := by
  refine ⟨?_, rfl⟩
  unfold umdadInit uniBinInit
  cases hvec : cfg.vector with
  | none => simp only; split <;> simp
  | some v =>
    have := hw.vector v hvec
    simp only
    split
    · simp
    · exact this

/-- All individuals of a `UMDAd` run have `n_variables` values, and the model keeps its bounds and
one probability per variable, within the bounds after the first update. -/
theorem umdad_rows (h : UMDAd fl cfg = .ok (e, b)) (hw : cfg.WF) :
    RowInv e ρ (fun r => r.length = cfg.base.nVars) (fun g => Rect cfg.base.nVars g.rows)
      (fun b => b.n = cfg.base.nVars ∧ b.lb = cfg.lower ∧ b.ub = cfg.upper ∧
        b.p.length = cfg.base.nVars)
      (fun b => ∀ x ∈ b.p, cfg.lower ≤ x ∧ x ≤ cfg.upper) := by
  obtain ⟨hm, hlu, hb⟩ := UMDAd_ok h
  obtain ⟨hp, hn⟩ := umdadInit_length hw
  constructor
  · intro g hg
    cases hd : cfg.base.initData with
    | none =>
      rw [hm.initNone hd] at hg
      obtain ⟨_, h2, _, h4⟩ := C21_sample_binary (by rw [hp, hn]) hg
      intro r hr
      rw [← hn]; exact (h4 r hr).1
    | some d =>
      obtain ⟨hc, hi⟩ := hm.initSome d hd
      rw [hi] at hg
      obtain rfl := Except.ok.inj hg
      intro r hr
      rw [hw.data d hd r hr]; exact hc
  · intro nz g g' hnz hg hgg
    rw [UMDAd_noise h hnz hgg]; exact hg
  · intro pm g el t pm' hI hN _ hu
    rw [hm.updatePm] at hu
    obtain ⟨i1, i2, i3, i4⟩ := hI
    obtain ⟨c1, c2, c3, c4, c5⟩ := C20_learn_frequencies (by rw [i2, i3]; exact hlu) hN hu
    refine ⟨⟨by rw [c4, i1], by rw [c2, i2], by rw [c3, i3], c1⟩, ?_⟩
    intro x hx
    obtain ⟨j, hj, rfl⟩ := List.mem_iff_getElem.1 hx
    have := c5 j (by omega)
    rw [List.getElem?_eq_getElem hj] at this
    rw [Option.some.inj this, i2, i3]
    unfold clip
    exact ⟨le_max_left _ _, max_le hlu.le (min_le_left _ _)⟩
  · intro pm t g hI _ hs
    rw [hm.sample] at hs
    obtain ⟨_, _, _, h4⟩ := C21_sample_binary (by rw [hI.2.2.2, hI.1]) hs
    intro r hr
    rw [← hI.1]; exact (h4 r hr).1

/-- **C23** `UMDAd` with `0 < lower_bound < upper_bound < 1`: whatever happened before (selected
individuals, costs), the model learned in any iteration can produce every generation of binary
strings. -/
theorem C23_every_string_reachable [IsStrictOrderedRing K] (hv : env.Valid)
    (h : UMDAd fl cfg = .ok (e, b)) (hw : cfg.WF) (hlo : 0 < cfg.lower) (hup : cfg.upper < 1)
    {t : ℕ} {s s' : St (List K) C (UniBin K)} {brk : Bool}
    {nz : Gen (List K) → Except PyErr (Gen (List K))} (hvis : Visited env e f ftol b ρ t s)
    (hnz : e.mkNoise ρ.noise = .ok nz) (hst : step env e f ftol ρ nz t s = .ok (s', brk))
    (target : List (List K)) (hlen : (target.length : ℤ) = e.sizeGen)
    (ht : ∀ r ∈ target, BinaryRow cfg.base.nVars r) :
    ∃ ω : Draws K, Unit01 ω ∧ e.sample s'.pm ω =
      .ok { dt := .int, cols := cfg.base.nVars, rows := target } := by
  obtain ⟨hm, hlu, hb⟩ := UMDAd_ok h
  have hr := umdad_rows (ρ := ρ) h hw
  have hall := allRows_visited hv hr (by rw [hb]; simp) hvis
  obtain ⟨s1, noisy, _, _, _, _, hs⟩ := step_ok hst
  obtain ⟨hg1, he1⟩ := truncation_rows hv (visited_aligned hv hvis) hs.trunc
  have hN := hr.noise nz _ _ hnz (fun r h => (hg1 r h).elim (hall.gen r) (hall.elite r)) hs.noise
  obtain ⟨⟨i1, _, _, i4⟩, hP⟩ := hr.learn _ _ _ _ _ hall.pm hN
    (fun r h => (he1 r h).elim (hall.gen r) (hall.elite r)) hs.update
  obtain ⟨ω, h1, h2⟩ := C21_full_support (b := s'.pm) (by rw [i4, i1])
    (fun x hx => ⟨hlo.trans_le (hP x hx).1, (hP x hx).2.trans_lt hup⟩) target (by rw [i1]; exact ht)
  refine ⟨ω, h1, ?_⟩
  rw [hm.sample]
  have : cfg.base.sizeGen = (target.length : ℤ) := by rw [hlen, hm.sizeGen]
  simp only [this, h2, i1]

example : ∃ s, Visited Ex.env Ex.eda Ex.cost 0 Ex.pm Ex.rand 2 s ∧
    ∃ ω : Draws ℚ, Unit01 ω ∧ Ex.eda.sample s.pm ω =
      .ok { dt := .int, cols := 2, rows := [[0, 0], [0, 1], [1, 0], [1, 1]] } := by
  obtain ⟨s, hh⟩ := Ex.ok_of_isSome (x := Ex.heads Ex.env Ex.eda Ex.cost 0 Ex.pm Ex.rand 1)
    (by decide +kernel)
  obtain ⟨s0, nz, h0, hn, hst⟩ := Ex.heads_step hh
  refine ⟨s, Ex.heads_visited hh, ?_⟩
  refine C23_every_string_reachable Ex.env_valid Ex.cfg_mk ⟨?_, ?_⟩ ?_ ?_
    (Ex.heads_visited h0) hn hst _ (by decide +kernel) ?_
  · intro v hvec; simp [Ex.cfg] at hvec
  · intro d hd; simp [Ex.cfg] at hd
  · norm_num [Ex.cfg]
  · norm_num [Ex.cfg]
  · intro r hr
    have hr : r = [0, 0] ∨ r = [0, 1] ∨ r = [1, 0] ∨ r = [1, 1] := by simpa using hr
    rcases hr with rfl | rfl | rfl | rfl <;> exact ⟨rfl, by simp⟩

/-- **C15** for `UMDAd`: on an object that already ran (any number of complete or interrupted runs
with any cost functions), `minimize` returns what it returns on the fresh object, given the same
draws: same result or exception, same calls of the cost function. -/
theorem C15_UMDAd_rerun (h : UMDAd fl cfg = .ok (e, b)) {pm : UniBin K} (hp : Reused e b pm) :
    (minimize env e f ftol pm ρ).map (fun x => (x.1, x.2.log)) =
      (minimize env e f ftol b ρ).map (fun x => (x.1, x.2.log)) := by
  obtain ⟨hm, _⟩ := UMDAd_ok h
  refine rerun_eq_fresh (fun b : UniBin K => (b.n, b.lb, b.ub)) ?_ ?_ hp
  · intro a g el ω a' hu
    rw [hm.updatePm] at hu
    obtain ⟨_, h1, h2, h3, _⟩ := UniBin.learn_ok hu
    simp [h1, h2, h3]
  · intro a b g el ω hk
    rw [hm.updatePm]
    obtain ⟨h1, h2, h3⟩ : a.n = b.n ∧ a.lb = b.lb ∧ a.ub = b.ub := by simpa using hk
    show a.learn fl g.rows = b.learn fl g.rows
    cases g.rows with
    | nil => rfl
    | cons r rs => simp [UniBin.learn, h1, h2, h3]

/-- A model left behind by the concrete run, different from the fresh one. -/
example : ∃ res s, minimize Ex.env Ex.eda Ex.cost 0 Ex.pm Ex.rand = .ok (res, s) ∧
    Reused Ex.eda Ex.pm s.pm ∧ s.pm.p ≠ Ex.pm.p := by
  obtain ⟨⟨res, s⟩, h, hp⟩ := Ex.facts_of (x := Ex.run) (g := fun x => decide (x.2.pm.p = Ex.pm.p))
    (y := false) (by decide +kernel)
  exact ⟨res, s, h, reused_after_run .fresh h, by simpa using hp⟩

/-- **C08** for `UMDAd`: without `init_data`, `n_fev` is the number of calls. -/
theorem C08_UMDAd [LawfulCost C] [UniformCost C] (hv : env.Valid) (h : UMDAd fl cfg = .ok (e, b))
    (hd : cfg.base.initData = none) {res : EdaResult (List K) C} {s : St (List K) C (UniBin K)}
    (hrun : minimize env e f ftol b ρ = .ok (res, s)) : res.nFev = s.log.flatten.length := by
  obtain ⟨hm, _⟩ := UMDAd_ok h
  have hsz : ∀ pm ω g, e.sample pm ω = .ok g → (g.rows.length : ℤ) = e.sizeGen := by
    intro pm ω g hg
    rw [hm.sample] at hg
    rw [hm.sizeGen]; exact (UniBin.sample_ok hg).2.2.1
  have hi : ∀ g, e.initGen ρ.init = .ok g → g.rows.length = e.sizeGen.toNat := by
    intro g hg
    rw [hm.initNone hd] at hg
    have := (UniBin.sample_ok hg).2.2.1
    rw [hm.sizeGen]; simp only; omega
  have hnn : 0 ≤ e.sizeGen := by
    obtain ⟨s0, _, h0, _⟩ := minimize_ok hrun
    obtain ⟨_, _, _, _, _, hs⟩ := start_ok h0
    have := hs.init
    rw [hm.initNone hd] at this
    rw [hm.sizeGen]; exact (UniBin.sample_ok this).1
  have hc := calls_count hv hi hsz hrun
  obtain ⟨_, _, hh, hn⟩ := result_eq hrun
  rw [hn, hc, hh, Int.toNat_of_nonneg hnn]; ring

example : ∃ res s, minimize Ex.env Ex.eda Ex.cost 0 Ex.pm Ex.rand = .ok (res, s) ∧
    res.nFev = s.log.flatten.length ∧ res.nFev = 12 := by
  obtain ⟨⟨res, s⟩, h, hp⟩ := Ex.facts_of (x := Ex.run) (g := fun x => x.1.nFev)
    (y := 12) (by decide +kernel)
  exact ⟨res, s, h, C08_UMDAd Ex.env_valid Ex.cfg_mk rfl h, hp⟩

/-- **C53** for `UMDAd`: a valid configuration can be constructed and run; nothing raises, for
every cost function that returns numbers and all draws.  The first generation has `m` rows. -/
theorem C53_UMDAd_never_raises [LawfulCost C] [UniformCost C] (hv : env.Valid) (hw : cfg.WF)
    (hdead : cfg.base.deadIter ≤ cfg.base.maxIter) (hlu : cfg.lower < cfg.upper)
    (hcols : ∀ d, cfg.base.initData = some d → d.cols = cfg.base.nVars ∧ d.dt ≠ .object ∧
      d.rows ≠ [] ∧ (cfg.base.parallel = true → env.cpu ≤ d.rows.length))
    (hsize : 1 ≤ cfg.base.sizeGen) (hcpu : cfg.base.parallel = true → (env.cpu : ℤ) ≤ cfg.base.sizeGen)
    (htr : 1 ≤ selLen fl cfg.base.sizeGen cfg.base.alpha) (hnum : ∀ k r, IsNum (f k r)) :
    ∃ e b, UMDAd fl cfg = .ok (e, b) ∧ ∃ res s, minimize env e f ftol b ρ = .ok (res, s) := by
  obtain ⟨e, he⟩ := (mkEda_isOk (fl := fl) (cfg := { cfg.base with wNoise := some 0 })
    (init := fun ω => (umdadInit cfg).sample cfg.base.sizeGen ω)
    (learn := fun (b : UniBin K) g _ _ => b.learn fl g.rows)
    (sample := fun b ω => b.sample cfg.base.sizeGen ω)).2 ⟨hdead, fun d hd => (hcols d hd).1⟩
  have hU : UMDAd fl cfg = .ok (e, ⟨cfg.base.nVars, cfg.lower, cfg.upper,
      List.replicate cfg.base.nVars 0⟩) := by
    unfold UMDAd
    rw [he]
    simp only [UniBin.new, if_pos hlu]
  refine ⟨e, _, hU, ?_⟩
  obtain ⟨hm, _, _⟩ := UMDAd_ok hU
  obtain ⟨hip, hin⟩ := umdadInit_length hw
  -- smallest number of rows of a generation
  let m : ℕ := match cfg.base.initData with
    | none => cfg.base.sizeGen.toNat
    | some d => min d.rows.length cfg.base.sizeGen.toNat
  have hm1 : m ≤ cfg.base.sizeGen.toNat := by
    show (match cfg.base.initData with
      | none => cfg.base.sizeGen.toNat
      | some d => min d.rows.length cfg.base.sizeGen.toNat) ≤ _
    cases cfg.base.initData <;> simp
  have hNR : NoRaise env.cpu e ρ m
      (fun g => g.cols = cfg.base.nVars ∧ g.dt ≠ .object ∧ Rect cfg.base.nVars g.rows)
      (fun g => g.rows ≠ [] ∧ Rect cfg.base.nVars g.rows)
      (fun b => b.n = cfg.base.nVars ∧ b.p.length = cfg.base.nVars ∧ b.lb < b.ub) := by
    have hsampleG : ∀ (b : UniBin K) ω, b.n = cfg.base.nVars → b.p.length = cfg.base.nVars →
        ∃ g, b.sample cfg.base.sizeGen ω = .ok g ∧
          (g.cols = cfg.base.nVars ∧ g.dt ≠ .object ∧ Rect cfg.base.nVars g.rows) ∧
          cfg.base.sizeGen.toNat = g.rows.length := by
      intro b ω h1 h2
      rcases C21_sample_total (b := b) cfg.base.sizeGen ω (by rw [h1, h2]) with ⟨hneg, _⟩ | ⟨_, g, hg⟩
      · omega
      · obtain ⟨a1, a2, a3, a4⟩ := C21_sample_binary (by rw [h1, h2]) hg
        refine ⟨g, hg, ⟨by rw [a2, h1], by rw [a3]; simp, fun r hr => ?_⟩, by omega⟩
        rw [← h1]; exact (a4 r hr).1
    constructor
    · show 1 ≤ (match cfg.base.initData with
        | none => cfg.base.sizeGen.toNat
        | some d => min d.rows.length cfg.base.sizeGen.toNat)
      cases hd : cfg.base.initData with
      | none => simp only; omega
      | some d =>
        have := List.length_pos_iff.2 (hcols d hd).2.2.1
        simp only; omega
    · rw [hm.truncLen]; exact htr
    · intro hp
      rw [hm.parallel] at hp
      have h1 := hcpu hp
      show env.cpu ≤ (match cfg.base.initData with
        | none => cfg.base.sizeGen.toNat
        | some d => min d.rows.length cfg.base.sizeGen.toNat)
      cases hd : cfg.base.initData with
      | none => simp only; omega
      | some d =>
        have := (hcols d hd).2.2.2 hp
        simp only; omega
    · cases hd : cfg.base.initData with
      | none =>
        rw [hm.initNone hd]
        obtain ⟨g, h1, h2, h3⟩ := hsampleG (umdadInit cfg) ρ.init hin hip
        exact ⟨g, h1, h2, by omega⟩
      | some d =>
        rw [(hm.initSome d hd).2]
        have hc := hcols d hd
        refine ⟨d, rfl, ⟨hc.1, hc.2.1, ?_⟩, ?_⟩
        · rw [← hc.1]; exact hw.data d hd
        · show (match cfg.base.initData with
            | none => cfg.base.sizeGen.toNat
            | some d => min d.rows.length cfg.base.sizeGen.toNat) ≤ _
          rw [hd]; simp only; omega
    · intro g rows hG hsub
      exact ⟨hG.1, hG.2.1, fun r hr => hG.2.2 r (hsub r hr)⟩
    · intro a b ha hb
      refine ⟨by rw [ha.1, hb.1], ha.1, ?_, ?_⟩
      · have h1 := ha.2.1; have h2 := hb.2.1
        revert h1 h2
        simp only
        cases a.dt <;> cases b.dt <;> simp [DType.promote]
      · intro r hr
        rcases List.mem_append.1 hr with h | h
        · exact ha.2.2 r h
        · exact hb.2.2 r h
    · refine ⟨addNoise .zero, ?_, ?_⟩
      · rw [hm.mkNoise]
        simp [BaseCfg.noiseAttr, mkWhiteNoise]
      · intro g hG hne _
        refine ⟨g, ?_, hne, hG.2.2⟩
        have := hG.2.1
        unfold addNoise
        cases hdt : g.dt <;> simp_all
    · intro pm g el t hP hN _ _
      rw [hm.updatePm]
      rcases C20_learn_total fl pm g.rows with ⟨h0, _⟩ | ⟨_, b', hb'⟩
      · exact absurd h0 hN.1
      · obtain ⟨c1, c2, c3, c4, _⟩ := C20_learn_frequencies hP.2.2 hN.2 hb'
        exact ⟨b', hb', by rw [c4, hP.1], c1, by rw [c2, c3]; exact hP.2.2⟩
    · intro pm t hP _
      rw [hm.sample]
      obtain ⟨g, h1, h2, h3⟩ := hsampleG pm (ρ.sample t) hP.1 hP.2.1
      exact ⟨g, h1, h2, by omega⟩
  exact minimize_progress hv hNR hnum ⟨rfl, by simp, hlu⟩

example : ∃ e b, UMDAd id Ex.parCfg = .ok (e, b) ∧
    ∃ res s, minimize Ex.env e Ex.cost 0 b Ex.randWorse = .ok (res, s) :=
  C53_UMDAd_never_raises Ex.env_valid ⟨by simp [Ex.parCfg, Ex.cfg], by simp [Ex.parCfg, Ex.cfg]⟩
    (by decide) (by norm_num [Ex.parCfg, Ex.cfg]) (by simp [Ex.parCfg, Ex.cfg]) (by decide)
    (by intro _; decide) (by decide +kernel) (by simp)

end run

end Verif
