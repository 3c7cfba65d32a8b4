/-
Construction and the parts of a run shared by all algorithms: C12 (white noise), C14 (`init_data`),
C45 (NaN costs), C49 (selection sizes).
-/
import Verif.Lemmas.UniBin
import Verif.Lemmas.Loop
import Verif.Model.Examples
import Mathlib.Data.EReal.Basic

set_option linter.unusedSectionVars false

namespace Verif

open Spec PyCost

section sizes
variable {K : Type} [Field K] [LinearOrder K] [IsStrictOrderedRing K] [FloorRing K]

/-- `int(x)` of a non-negative number is its integer part. -/
theorem pyInt_nonneg {x : K} (h : 0 ≤ x) : pyInt x = ⌊x⌋ := by
  unfold pyInt Num.truncZ; rw [if_pos h]

/-- **C49** for `0 ≤ size_gen` and a factor in `[0,1]`, under any monotone rounding `fl` of the
product that is exact for `0` and `size_gen`, the selection size is the integer part of the rounded
product and lies between `0` and `size_gen`. -/
theorem C49_selection_size_bounds (fl : K → K) (hmono : Monotone fl) (h0 : fl 0 = 0) (n : ℤ)
    (hn : 0 ≤ n) (hfn : fl (n : K) = n) (a : K) (ha0 : 0 ≤ a) (ha1 : a ≤ 1) :
    selLen fl n a = ⌊fl (n * a)⌋ ∧ 0 ≤ selLen fl n a ∧ selLen fl n a ≤ n := by
  have hnK : (0 : K) ≤ n := by exact_mod_cast hn
  have hge : 0 ≤ fl (n * a) := by rw [← h0]; exact hmono (mul_nonneg hnK ha0)
  have hle : fl (n * a) ≤ n := by
    exact (hmono (mul_le_of_le_one_right hnK ha1)).trans (le_of_eq hfn)
  have heq : selLen fl n a = ⌊fl (n * a)⌋ := by unfold selLen; exact pyInt_nonneg hge
  refine ⟨heq, ?_, ?_⟩
  · rw [heq]; exact Int.floor_nonneg.2 hge
  · rw [heq]; exact Int.floor_le_iff.2 (hle.trans_lt (by simp))

/-- **C49** the selection size is monotone in the factor. -/
theorem C49_selection_size_mono (fl : K → K) (hmono : Monotone fl) (h0 : fl 0 = 0) (n : ℤ)
    (hn : 0 ≤ n) (a b : K) (ha : 0 ≤ a) (hab : a ≤ b) : selLen fl n a ≤ selLen fl n b := by
  have hnK : (0 : K) ≤ n := by exact_mod_cast hn
  have hge : ∀ c : K, 0 ≤ c → 0 ≤ fl (n * c) := fun c hc => by
    rw [← h0]; exact hmono (mul_nonneg hnK hc)
  unfold selLen
  rw [pyInt_nonneg (hge a ha), pyInt_nonneg (hge b (ha.trans hab))]
  exact Int.floor_le_floor (hmono (mul_le_mul_of_nonneg_left hab hnK))

/-- **C49** with exact arithmetic the selection size is the integer part of `size_gen * factor`:
the largest integer not above it. -/
theorem C49_selection_size_exact (n : ℤ) (hn : 0 ≤ n) (a : K) (ha : 0 ≤ a) :
    (selLen id n a : K) ≤ n * a ∧ (n * a : K) < selLen id n a + 1 := by
  have hnK : (0 : K) ≤ n := by exact_mod_cast hn
  have : selLen id n a = ⌊(n * a : K)⌋ := by unfold selLen; exact pyInt_nonneg (mul_nonneg hnK ha)
  rw [this]
  exact ⟨Int.floor_le _, Int.lt_floor_add_one _⟩

example : selLen id 7 (1/2 : ℚ) = 3 ∧ selLen id 7 (1/10 : ℚ) = 0 ∧ selLen id 7 (1 : ℚ) = 7 := by
  decide +kernel

/-- A rounding that satisfies the hypotheses without being exact. -/
example : selLen (fun x : ℚ => (⌊x * 4⌋ : ℚ) / 4) 10 (3/10) = ⌊(fun x : ℚ => (⌊x * 4⌋ : ℚ) / 4)
    ((10 : ℤ) * (3/10))⌋ ∧ 0 ≤ selLen (fun x : ℚ => (⌊x * 4⌋ : ℚ) / 4) 10 (3/10) ∧
    selLen (fun x : ℚ => (⌊x * 4⌋ : ℚ) / 4) 10 (3/10) ≤ 10 := by
  apply C49_selection_size_bounds
  · intro a b h
    have : ⌊a * 4⌋ ≤ ⌊b * 4⌋ := Int.floor_le_floor (by linarith)
    have : (⌊a * 4⌋ : ℚ) ≤ ⌊b * 4⌋ := by exact_mod_cast this
    simp only; linarith
  · norm_num
  · norm_num
  · norm_num
  · norm_num
  · norm_num

end sizes

section initdata
variable {K : Type} [Field K] [LinearOrder K] [FloorRing K] {R σ Ω : Type} {fl : K → K}
variable {cfg : BaseCfg K R} {noise : Ω → Except PyErr (Gen R → Except PyErr (Gen R))}
variable {init : Ω → Except PyErr (Gen R)} {learn : σ → Gen R → Gen R → Ω → Except PyErr σ}
variable {sample : σ → Ω → Except PyErr (Gen R)} {e : Eda R σ Ω}
variable {C : Type} [PyCost C] {env : Env C} {f : ℕ → R → C} {ftol : C} {ρ : Rand Ω} {pm : σ}

/-- **C14** for every algorithm built on `EDA.__init__`: when `init_data` is given, the first
evaluated generation is exactly `init_data`, each row evaluated once, in order. -/
theorem C14_first_generation (hv : env.Valid) {d : Gen R} (hd : cfg.initData = some d)
    (he : mkEdaG fl cfg noise init learn sample = .ok e) {res : EdaResult R C}
    {s : St R C σ} (h : minimize env e f ftol pm ρ = .ok (res, s)) :
    s.log[0]? = some (d.rows.zip (callRows f 0 d.rows)) ∧
    (∀ i r, d.rows[i]? = some r → s.log.flatten[i]? = some (r, f i r)) := by
  have hm := mkEdaG_ok he
  have key : s.log[0]? = some (d.rows.zip (callRows f 0 d.rows)) := by
    refine minimize_inv (fun s => s.log[0]? = some (d.rows.zip (callRows f 0 d.rows))) ?_ ?_ h
    · intro s0 h0
      obtain ⟨_, _, _, _, _, hs⟩ := start_ok h0
      have hg := hs.init
      rw [(hm.initSome d hd).2] at hg
      have hg := Except.ok.inj hg
      rw [hs.log, (check_calls hv hs.check).2, ← hg]; rfl
    · intro _ t s s' b hi _ hst
      obtain ⟨_, _, _, _, _, _, hs⟩ := step_ok hst
      rw [hs.log, List.getElem?_append_left]
      · exact hi
      · exact (List.getElem?_eq_some_iff.1 hi).1
  refine ⟨key, ?_⟩
  intro i r hr
  have hz : (d.rows.zip (callRows f 0 d.rows))[i]? = some (r, f i r) := by
    rw [List.getElem?_zip_eq_some]
    exact ⟨hr, by rw [callRows_getElem?, hr]; simp⟩
  cases hl : s.log with
  | nil => rw [hl] at key; simp at key
  | cons a as =>
    rw [hl] at key
    simp only [List.getElem?_cons_zero, Option.some.injEq] at key
    subst key
    rw [List.flatten_cons, List.getElem?_append_left (List.getElem?_eq_some_iff.1 hz).1]
    exact hz

/-- **C14** the initializer is never used when `init_data` is given: the object (and hence every
run) is the same for every initializer. -/
theorem C14_initializer_unused {d : Gen R} (hd : cfg.initData = some d)
    (init' : Ω → Except PyErr (Gen R)) :
    mkEdaG fl cfg noise init learn sample = mkEdaG fl cfg noise init' learn sample := by
  unfold mkEdaG
  simp only [hd]

/-- **C14** construction with `init_data` of the wrong number of columns fails with an assertion. -/
theorem C14_wrong_columns {d : Gen R} (hd : cfg.initData = some d)
    (hc : d.cols ≠ cfg.nVars) : mkEdaG fl cfg noise init learn sample = .error .assertion := by
  unfold mkEdaG
  simp only [hd, if_neg hc, ite_self]

example : ∃ res s, minimize Ex.env Ex.dataEda Ex.cost 0 Ex.pm Ex.rand = .ok (res, s) ∧
    s.log[0]? = some [([0, 0], 7), ([1, 0], 6), ([0, 0], 7)] := by
  obtain ⟨⟨res, s⟩, h⟩ := Ex.ok_of_isSome Ex.runData_some
  refine ⟨res, s, h, ?_⟩
  have he := UMDAd_mk Ex.dataCfg_mk
  rw [(C14_first_generation Ex.env_valid rfl he h).1]
  decide +kernel

example : mkEda (σ := Unit) (id : ℚ → ℚ) { Ex.dataCfg.base with nVars := 3 }
    (fun _ => .error .exception) (fun _ _ _ _ => .ok ()) (fun _ _ => .error .exception)
      = .error .assertion :=
  C14_wrong_columns (d := { dt := .int, cols := 2, rows := [[0, 0], [1, 0], [0, 0]] }) rfl
    (by decide)

end initdata

section noise
variable {K : Type} [Field K] [LinearOrder K] [FloorRing K] {σ : Type} {fl : K → K}
variable {cfg : BaseCfg K (List K)} {init : Draws K → Except PyErr (Gen (List K))}
variable {learn : σ → Gen (List K) → Gen (List K) → Draws K → Except PyErr σ}
variable {sample : σ → Draws K → Except PyErr (Gen (List K))} {e : Eda (List K) σ (Draws K)}
variable {C : Type} [PyCost C] {env : Env C} {f : ℕ → List K → C} {ftol : C} {ρ : Rand (Draws K)}
variable {pm : σ}

theorem mkNoise_pos {w : K} (hw : cfg.wNoise = some w) (hw0 : 0 < w) (hm1 : w ≠ -1)
    (htr : 0 ≤ selLen fl cfg.sizeGen cfg.alpha)
    (he : mkEda fl cfg init learn sample = .ok e) (ω : Draws K) :
    e.mkNoise ω = .ok (addNoise (.matrix e.truncLen.toNat cfg.nVars ω)) := by
  have hm := mkEda_ok he
  rw [hm.mkNoise]
  have hattr : cfg.noiseAttr = w := by
    unfold BaseCfg.noiseAttr; rw [hw]; simp [hw0.ne']
  unfold mkWhiteNoise
  rw [hattr, if_neg hw0.ne', if_neg hm1, if_neg (not_lt.2 hw0.le), if_neg (not_lt.2 htr)]
  rw [hm.truncLen]

/-- **C12** every iteration of a run with `w_noise > 0`: the model is learned from the selected
individuals plus the noise matrix drawn once for the run (entry `(i,j)` is added to value `j` of
selected individual `i`), whereas the elite and its recorded costs are exactly those selected. -/
theorem C12_noise_only_training_set (hv : env.Valid) {w : K} (hw : cfg.wNoise = some w)
    (hw0 : 0 < w) (hm1 : w ≠ -1) (htr : 0 ≤ selLen fl cfg.sizeGen cfg.alpha)
    (he : mkEda fl cfg init learn sample = .ok e)
    {t : ℕ} {s s' : St (List K) C σ} {brk : Bool}
    {nz : Gen (List K) → Except PyErr (Gen (List K))} (hvis : Visited env e f ftol pm ρ t s)
    (hnz : e.mkNoise ρ.noise = .ok nz)
    (hst : step env e f ftol ρ nz t s = .ok (s', brk)) :
    ∃ s1 : St (List K) C σ, ∃ noisy : Gen (List K), truncation env e s = .ok s1 ∧
      learn s.pm noisy s1.elite (ρ.learn t) = .ok s'.pm ∧
      noisy.rows.length = s1.gen.rows.length ∧ (s1.gen.rows.length : ℤ) = e.truncLen ∧
      (∀ (i : ℕ) (r : List K), s1.gen.rows[i]? = some r → r.length = cfg.nVars →
        noisy.rows[i]? = some (r.mapIdx (fun j x => x + ρ.noise i j))) ∧
      s'.elite = s1.elite ∧ s'.evalsElite = s1.evalsElite := by
  have hm := mkEda_ok he
  obtain ⟨s1, noisy, ev, best, i, ind, hs⟩ := step_ok hst
  rw [mkNoise_pos hw hw0 hm1 htr he] at hnz
  have hnz := Except.ok.inj hnz
  subst hnz
  have hny := hs.noise
  have ha := visited_aligned hv hvis
  have hlen := truncation_length hv ha hs.trunc (by rw [hm.truncLen]; exact htr)
  have htr' : 0 ≤ e.truncLen := by rw [hm.truncLen]; exact htr
  have hpos : 1 ≤ s.gen.rows.length := by
    cases hvis with
    | first h0 =>
      obtain ⟨_, _, _, _, _, h⟩ := start_ok h0
      exact (List.getElem?_eq_some_iff.1 h.row0).1
    | next _ _ h =>
      obtain ⟨_, _, _, _, i, _, h⟩ := step_ok h
      have := (List.getElem?_eq_some_iff.1 h.indRow).1
      omega
  unfold addNoise at hny
  simp only at hny
  split at hny
  · simp at hny
  · simp at hny
  split at hny
  · rename_i hsh
    have hny := Except.ok.inj hny
    have hrows : (s1.gen.rows.length : ℤ) = e.truncLen := by
      rcases hsh.1 with h | h
      · omega
      · omega
    have hu := hs.update
    rw [hm.updatePm] at hu
    refine ⟨s1, noisy, hs.trunc, hu, ?_, hrows, ?_, hs.elite, hs.evalsElite⟩
    · rw [← hny]; simp
    · intro i r hr hrl
      rw [← hny]
      simp only [List.getElem?_mapIdx, hr, Option.map_some, Option.some.injEq, addNoiseRow]
      have hi : (if e.truncLen.toNat = 1 then 0 else i) = i := by
        have := (List.getElem?_eq_some_iff.1 hr).1
        split <;> omega
      rw [hi]
      apply List.ext_getElem?
      intro j
      rw [List.getElem?_mapIdx, List.getElem?_mapIdx]
      cases hj : r[j]? with
      | none => rfl
      | some x =>
        have := (List.getElem?_eq_some_iff.1 hj).1
        have hj0 : (if cfg.nVars = 1 then 0 else j) = j := by split <;> omega
        rw [hj0]
  · simp at hny

/-- **C12** when the selection does not have `truncation_length` rows, the iteration raises. -/
theorem C12_shape_mismatch_raises (hv : env.Valid) {w : K} (hw : cfg.wNoise = some w)
    (hw0 : 0 < w) (hm1 : w ≠ -1) (htr : 0 ≤ selLen fl cfg.sizeGen cfg.alpha)
    (he : mkEda fl cfg init learn sample = .ok e)
    {t : ℕ} {s s1 : St (List K) C σ} (hvis : Visited env e f ftol pm ρ t s)
    (htrunc : truncation env e s = .ok s1) (hfl : s1.gen.dt = .float)
    (hne : (s1.gen.rows.length : ℤ) ≠ e.truncLen) :
    ∃ nz, e.mkNoise ρ.noise = .ok nz ∧
      step env e f ftol ρ nz t s = .error .valueError := by
  have hm := mkEda_ok he
  refine ⟨_, mkNoise_pos hw hw0 hm1 htr he _, ?_⟩
  have ha := visited_aligned hv hvis
  have htr' : 0 ≤ e.truncLen := by rw [hm.truncLen]; exact htr
  have hlen := truncation_length hv ha htrunc htr'
  have hpos : 1 ≤ s.gen.rows.length := by
    cases hvis with
    | first h0 =>
      obtain ⟨_, _, _, _, _, h⟩ := start_ok h0
      exact (List.getElem?_eq_some_iff.1 h.row0).1
    | next _ _ h =>
      obtain ⟨_, _, _, _, i, _, h⟩ := step_ok h
      have := (List.getElem?_eq_some_iff.1 h.indRow).1
      omega
  unfold step
  rw [htrunc]
  simp only [addNoise, hfl]
  rw [if_neg]
  rintro ⟨h | h, _⟩
  · omega
  · omega

end noise

section nan
variable {R C σ Ω : Type} [PyCost C] [LawfulCost C]
variable {env : Env C} {e : Eda R σ Ω} {f : ℕ → R → C} {ftol : C} {pm : σ} {ρ : Rand Ω}

theorem whereFirst_isNum {l : List C} {b : C} {i : ℕ} (h : whereFirst l b = some i) : IsNum b := by
  unfold whereFirst at h
  rw [List.findIdx?_eq_some_iff_findIdx_eq] at h
  have h1 := List.findIdx_getElem (xs := l) (p := fun x => eq x b) (w := by omega)
  exact ((LawfulCost.eq_iff _ _).1 h1).2.1

theorem pyMin_nan_first {c : C} {cs : List C} (hc : ¬ IsNum c) :
    pyMin (c :: cs) = some c ∧ whereFirst (c :: cs) c = none := by
  constructor
  · simp only [pyMin, Option.some.injEq]
    induction cs with
    | nil => rfl
    | cons a cs ih =>
      rw [List.foldl_cons]
      have : lt a c = false := by
        by_contra h
        exact hc (LawfulCost.lt_num _ _ (Bool.eq_true_of_not_eq_false h)).2
      rw [this]
      simpa using ih
  · unfold whereFirst
    rw [List.findIdx?_eq_none_iff]
    intro x _
    by_contra h
    exact hc ((LawfulCost.eq_iff _ _).1 (Bool.eq_true_of_not_eq_false h)).2.1

/-- **C45** NaN is never reported: neither `best_cost` nor any entry of `history` is NaN. -/
theorem C45_nan_never_reported {res : EdaResult R C} {s : St R C σ}
    (h : minimize env e f ftol pm ρ = .ok (res, s)) :
    IsNum res.bestCost ∧ ∀ x ∈ res.history, IsNum x := by
  obtain ⟨_, hbc, hh, _⟩ := result_eq h
  rw [hbc, hh]
  refine minimize_inv (fun s => IsNum s.bestCost ∧ ∀ x ∈ s.history, IsNum x) ?_ ?_ h
  · intro s0 h0
    obtain ⟨_, _, _, best, _, hs⟩ := start_ok h0
    rw [hs.bestCost, hs.history]
    have := whereFirst_isNum hs.pos
    exact ⟨this, by simpa using this⟩
  · intro _ t s s' b hi _ hst
    obtain ⟨_, _, _, best, _, _, hs⟩ := step_ok hst
    have hb := whereFirst_isNum hs.pos
    rw [hs.history]
    refine ⟨?_, ?_⟩
    · rcases hs.upd with ⟨_, h2, _⟩ | ⟨_, h2, _⟩
      · rw [h2]; exact hb
      · rw [h2]; exact hi.1
    · intro x hx
      rcases List.mem_append.1 hx with hx | hx
      · exact hi.2 x hx
      · rw [List.mem_singleton.1 hx]; exact hb

/-- **C45** a NaN cost for the first individual of the first generation raises `IndexError`, in
every run whose first generation can be evaluated. -/
theorem C45_nan_first_raises [UniformCost C] (hv : env.Valid) {g : Gen R} {r0 : R}
    (hg : e.initGen ρ.init = .ok g) (hr : g.rows[0]? = some r0) (hnan : ¬ IsNum (f 0 r0))
    (hcpu : e.parallel = true → env.cpu ≤ g.rows.length) :
    minimize env e f ftol pm ρ = .error .indexError := by
  have hne : g.rows ≠ [] := by intro h; rw [h] at hr; simp at hr
  obtain ⟨⟨calls, evals⟩, hck⟩ := check_isOk (f := f) (k := 0) hv hne hcpu
  have hst : evals = callRows f 0 g.rows := check_stored hv hck
  have hstart : start env e f pm ρ = .error .indexError := by
    unfold start
    rw [hg]
    simp only [hck]
    cases hrows : g.rows with
    | nil => exact absurd hrows hne
    | cons a as =>
      have ha : a = r0 := by rw [hrows] at hr; simpa using hr
      subst ha
      have hev : evals = f 0 a :: callRows f 1 as := by
        rw [hst, hrows]
        simp [callRows, List.mapIdx_cons, Nat.add_comm]
      obtain ⟨h1, h2⟩ := pyMin_nan_first (cs := callRows f 1 as) hnan
      rw [hev]
      simp only [h1, h2]
  unfold minimize
  rw [hstart]

/-- **C45** a NaN cost for the first individual of a later generation raises `IndexError` in that
iteration; `k` is the number of calls made before. -/
theorem C45_nan_first_raises_later [UniformCost C] (hv : env.Valid) {t : ℕ} {s s1 : St R C σ}
    {noise : Gen R → Except PyErr (Gen R)} {noisy g : Gen R} {pm' : σ} {r0 : R}
    (ht : truncation env e s = .ok s1) (hn : noise s1.gen = .ok noisy)
    (hu : e.updatePm s1.pm noisy s1.elite (ρ.learn t) = .ok pm')
    (hg : e.sample pm' (ρ.sample t) = .ok g) (hr : g.rows[0]? = some r0)
    (hnan : ¬ IsNum (f s.log.flatten.length r0))
    (hcpu : e.parallel = true → env.cpu ≤ g.rows.length) :
    step env e f ftol ρ noise t s = .error .indexError := by
  have hne : g.rows ≠ [] := by intro h; rw [h] at hr; simp at hr
  have hlog : s1.log = s.log := (truncation_fields ht).2.2.2.2.2
  obtain ⟨⟨calls, evals⟩, hck⟩ := check_isOk (f := f) (k := s1.log.flatten.length) hv hne hcpu
  have hst : evals = callRows f s1.log.flatten.length g.rows := check_stored hv hck
  unfold step
  rw [ht]
  simp only [hn, hu, hg, hck]
  obtain ⟨a, as, hrows⟩ := List.exists_cons_of_ne_nil hne
  have ha : a = r0 := by rw [hrows] at hr; simpa using hr
  subst ha
  have hev : evals = f s1.log.flatten.length a :: callRows f (s1.log.flatten.length + 1) as := by
    rw [hst, hrows]
    simp [callRows, List.mapIdx_cons, Nat.add_comm, Nat.add_left_comm]
  have hnan' : ¬ IsNum (f s1.log.flatten.length a) := by rw [hlog]; exact hnan
  obtain ⟨h1, h2⟩ := pyMin_nan_first (cs := callRows f (s1.log.flatten.length + 1) as) hnan'
  simp only [hev, h1, h2]

/-- **C45** NaN costs in other positions do not raise: if the first cost of the first generation is
a number, the first evaluation succeeds and its best cost is a number that no cost undercuts. -/
theorem C45_nan_elsewhere_ok [UniformCost C] (hv : env.Valid) {g : Gen R} {r0 : R}
    (hg : e.initGen ρ.init = .ok g) (hr : g.rows[0]? = some r0) (hnum : IsNum (f 0 r0))
    (hcpu : e.parallel = true → env.cpu ≤ g.rows.length) :
    ∃ s0, start env e f pm ρ = .ok s0 ∧ IsNum s0.bestCost ∧
      ∀ i r, g.rows[i]? = some r → lt (f i r) s0.bestCost = false := by
  have hne : g.rows ≠ [] := by intro h; rw [h] at hr; simp at hr
  obtain ⟨⟨calls, evals⟩, hck⟩ := check_isOk (f := f) (k := 0) hv hne hcpu
  have hst : evals = callRows f 0 g.rows := check_stored hv hck
  obtain ⟨a, as, hrows⟩ := List.exists_cons_of_ne_nil hne
  have ha : a = r0 := by rw [hrows] at hr; simpa using hr
  subst ha
  have hev : evals = f 0 a :: callRows f 1 as := by
    rw [hst, hrows]
    simp [callRows, List.mapIdx_cons, Nat.add_comm]
  obtain ⟨best, hb⟩ := pyMin_isSome (ev := evals) (by rw [hev]; simp)
  have hbn : IsNum best := by
    rw [hev] at hb
    exact (pyMin_num_iff hb).2 hnum
  have hwf : ∃ i, whereFirst evals best = some i := by
    cases hw : whereFirst evals best with
    | some i => exact ⟨i, rfl⟩
    | none =>
      exfalso
      unfold whereFirst at hw
      have := List.findIdx?_eq_none_iff.1 hw _ (pyMin_mem hb)
      rw [hbn] at this
      exact Bool.noConfusion this
  obtain ⟨i, hi⟩ := hwf
  have hex : ∃ s0, start env e f pm ρ = .ok s0 := by
    unfold start
    rw [hg]
    rw [hrows] at hck
    rw [hev] at hck hb hi
    simp [hrows, hck, hb, hi]
  obtain ⟨s0, h0⟩ := hex
  obtain ⟨ev, r1, c0, best, j, hs⟩ := start_ok h0
  have hgen : s0.gen = g := by have := hs.init; rw [hg] at this; exact (Except.ok.inj this).symm
  refine ⟨s0, h0, by rw [hs.bestCost]; exact whereFirst_isNum hs.pos, ?_⟩
  intro i r hri
  have hstored := check_stored hv hs.check
  rw [hs.bestCost]
  refine pyMin_le hs.minEq _ ?_
  rw [hstored, hgen]
  apply List.mem_of_getElem? (i := i)
  rw [callRows_getElem?, hri]
  simp

end nan

section floats
variable {R σ Ω : Type} {env : Env (Flt ℝ)} {e : Eda R σ Ω} {f : ℕ → R → Flt ℝ} {pm : σ} {ρ : Rand Ω}

/-- Specification: the extended real that a float stands for, if any. -/
noncomputable def Spec.fltValue : Flt ℝ → Option EReal
  | .nan => none
  | .ninf => some ⊥
  | .fin q => some (q : EReal)
  | .pinf => some ⊤

/-- **C45** the same for floats with their usual meaning: no reported number is NaN. -/
theorem C45_float_reports {ftol : Flt ℝ} {res : EdaResult R (Flt ℝ)} {s : St R (Flt ℝ) σ}
    (h : minimize env e f ftol pm ρ = .ok (res, s)) :
    res.bestCost ≠ .nan ∧ Flt.nan ∉ res.history := by
  obtain ⟨h1, h2⟩ := C45_nan_never_reported h
  exact ⟨(Flt.isNum_iff _).1 h1, fun hm => (Flt.isNum_iff _).1 (h2 _ hm) rfl⟩

/-- **C45** the same for floats with their usual meaning: a first cost NaN raises. -/
theorem C45_float_first_raises {ftol : Flt ℝ} (hv : env.Valid) {g : Gen R} {r0 : R}
    (hg : e.initGen ρ.init = .ok g) (hr : g.rows[0]? = some r0) (hnan : f 0 r0 = .nan)
    (hcpu : e.parallel = true → env.cpu ≤ g.rows.length) :
    minimize env e f ftol pm ρ = .error .indexError :=
  C45_nan_first_raises hv hg hr (by rw [Flt.isNum_iff]; exact fun h => h hnan) hcpu

/-- **C45** the same for floats with their usual meaning: if only other costs are NaN, the best cost
of the first generation is the least of the others, infinities included. -/
theorem C45_float_least (hv : env.Valid) {g : Gen R} {r0 : R}
    (hg : e.initGen ρ.init = .ok g) (hr : g.rows[0]? = some r0) (hnum : f 0 r0 ≠ .nan)
    (hcpu : e.parallel = true → env.cpu ≤ g.rows.length) :
    ∃ s0 b, start env e f pm ρ = .ok s0 ∧ Spec.fltValue s0.bestCost = some b ∧
      ∀ i r v, g.rows[i]? = some r → Spec.fltValue (f i r) = some v → b ≤ v := by
  obtain ⟨s0, h0, hn, hle⟩ := C45_nan_elsewhere_ok (pm := pm) hv hg hr ((Flt.isNum_iff _).2 hnum) hcpu
  rw [Flt.isNum_iff] at hn
  have key : ∀ x y : Flt ℝ, x ≠ .nan → PyCost.lt y x = false → ∀ v, Spec.fltValue y = some v →
      ∃ b, Spec.fltValue x = some b ∧ b ≤ v := by
    intro x y hx hlt v hy
    cases x <;> cases y <;> simp_all [PyCost.lt, Flt.lt, Spec.fltValue] <;> subst hy <;> simp_all
  obtain ⟨b, hb⟩ : ∃ b, Spec.fltValue s0.bestCost = some b := by
    cases hc : s0.bestCost <;> simp_all [Spec.fltValue]
  refine ⟨s0, b, h0, hb, fun i r v hri hv => ?_⟩
  obtain ⟨b', hb', hle'⟩ := key _ _ hn (hle i r hri) v hv
  rw [hb] at hb'
  cases hb'
  exact hle'

/-- **C45** infinite costs: as long as the best cost is `inf`, a tolerance above -1 makes the run
take over the best cost of each new generation, and a tolerance of -1 or less makes it keep `inf`
for ever. -/
theorem C45_infinite_best {K : Type} [Field K] [LinearOrder K] [IsStrictOrderedRing K]
    {env : Env (Flt K)} {f : ℕ → R → Flt K} {a : K} {noise : Gen R → Except PyErr (Gen R)} {t : ℕ}
    {s s' : St R (Flt K) σ} {b : Bool} (hst : step env e f (.fin a) ρ noise t s = .ok (s', b))
    (hinf : s.bestCost = .pinf) :
    (-1 < a → s'.history.getLast? = some s'.bestCost) ∧ (a ≤ -1 → s'.bestCost = .pinf) := by
  obtain ⟨_, _, _, best, _, _, hs⟩ := step_ok hst
  have hb : best ≠ .nan := (Flt.isNum_iff _).1 (whereFirst_isNum hs.pos)
  have hm : PyCost.mulTol s.bestCost (.fin a) = Flt.infSign (1 + a) := by
    rw [hinf]; rfl
  have hu := hs.upd
  rw [hm, hinf] at hu
  rw [hs.history]
  constructor
  · intro ha
    have hp : Flt.infSign (1 + a) = .pinf := by
      unfold Flt.infSign
      rw [if_neg (by linarith), if_neg (by linarith)]
    rw [hp] at hu
    rcases hu with ⟨_, hbc, _⟩ | ⟨hlt, hbc, _⟩
    · simp [hbc]
    · cases best <;> simp_all [PyCost.lt, Flt.lt]
  · intro ha
    have hlt : PyCost.lt best (Flt.infSign (1 + a)) = false := by
      unfold Flt.infSign
      split_ifs with h1 h2
      · cases best <;> rfl
      · cases best <;> rfl
      · exact absurd (lt_of_le_of_ne (by linarith) h1) h2
    rcases hu with ⟨h, _⟩ | ⟨_, hbc, _⟩
    · rw [hlt] at h; exact absurd h (by simp)
    · exact hbc

end floats

namespace Ex

def envF : Env (Flt ℚ) := { argsort := stableArgsort, cpu := 2, sched := fun _ => [1, 0] }

theorem envF_valid : envF.Valid where
  argsort := stableArgsort_isArgsort
  cpu := by decide
  sched := by
    intro k i hi
    have hi : i < 2 := hi
    have : i = 0 ∨ i = 1 := by omega
    rcases this with rfl | rfl <;> simp [envF]

/-- NaN for `[0, 1]`, a finite cost otherwise. -/
def costNan (_ : ℕ) (r : List ℚ) : Flt ℚ := if r = [0, 1] then .nan else .fin (7 - r.sum)
/-- NaN for `[1, 0]`, which is the first individual of the run. -/
def costNan0 (_ : ℕ) (r : List ℚ) : Flt ℚ := if r = [1, 0] then .nan else .fin (7 - r.sum)

end Ex

/-- A run with NaN costs that returns a number. -/
example : ∃ res s, minimize Ex.envF Ex.eda Ex.costNan (.fin 0) Ex.pm Ex.rand = .ok (res, s) ∧
    res.bestCost = .fin 5 ∧ Flt.nan ∈ s.log.flatten.map Prod.snd ∧ IsNum res.bestCost := by
  obtain ⟨⟨res, s⟩, h, hf⟩ := Ex.facts_of
    (x := minimize Ex.envF Ex.eda Ex.costNan (.fin 0) Ex.pm Ex.rand)
    (g := fun x => (x.1.bestCost, decide (Flt.nan ∈ x.2.log.flatten.map Prod.snd)))
    (y := (.fin 5, true)) (by decide +kernel)
  simp only [Prod.mk.injEq, decide_eq_true_eq] at hf
  exact ⟨res, s, h, hf.1, hf.2, (C45_nan_never_reported h).1⟩

namespace Ex

/-- `inf` for `[1, 0]`, a finite cost otherwise. -/
def costInf (_ : ℕ) (r : List ℚ) : Flt ℚ := if r = [1, 0] then .pinf else .fin (7 - r.sum)

noncomputable def envR : Env (Flt ℝ) :=
  { argsort := stableArgsort, cpu := 2, sched := fun _ => [1, 0] }

theorem envR_valid : envR.Valid where
  argsort := stableArgsort_isArgsort
  cpu := by decide
  sched := by
    intro k i hi
    have hi : i < 2 := hi
    have : i = 0 ∨ i = 1 := by omega
    rcases this with rfl | rfl <;> simp [envR]

/-- NaN for `[0, 1]`, real costs otherwise. -/
noncomputable def costR (_ : ℕ) (r : List ℚ) : Flt ℝ :=
  if r = [0, 1] then .nan else .fin ((7 - r.sum : ℚ) : ℝ)

end Ex

/-- The first generation of a run with NaN costs and its least other cost. -/
example : ∃ s0 b, start Ex.envR Ex.eda Ex.costR Ex.pm Ex.rand = .ok s0 ∧
    Spec.fltValue s0.bestCost = some b ∧ b ≤ ((6 : ℚ) : ℝ) := by
  obtain ⟨g, hg, hr⟩ := Ex.facts_of (x := Ex.eda.initGen Ex.rand.init) (g := fun g => g.rows[0]?)
    (y := some [1, 0]) (by decide +kernel)
  obtain ⟨s0, b, h0, hb, hle⟩ := C45_float_least (f := Ex.costR) (pm := Ex.pm) Ex.envR_valid hg hr
    (by simp [Ex.costR]) (by intro h; exact absurd h (by decide +kernel))
  exact ⟨s0, b, h0, hb, hle 0 [1, 0] _ hr (by simp [Ex.costR, Spec.fltValue]; norm_num)⟩

/-- Two runs over the same generations: with tolerance 0 an infinite best cost is replaced, with
tolerance -1 it is not. -/
example :
    (Ex.eda.initGen Ex.rand.init).toOption.map (fun g => g.rows[0]?) = some (some [1, 0]) ∧
    (minimize Ex.envF Ex.eda (fun k r => if k < 4 then .pinf else Ex.costInf k r) (.fin 0) Ex.pm
      Ex.rand).toOption.map (fun x => decide (x.1.bestCost = .pinf)) = some false ∧
    (minimize Ex.envF Ex.eda (fun k r => if k < 4 then .pinf else Ex.costInf k r) (.fin (-1)) Ex.pm
      Ex.rand).toOption.map (fun x => decide (x.1.bestCost = .pinf)) = some true := by
  decide +kernel

/-- A run that raises because the first cost is NaN. -/
example : minimize Ex.envF Ex.eda Ex.costNan0 (.fin 0) Ex.pm Ex.rand = .error .indexError := by
  obtain ⟨g, hg, hr⟩ := Ex.facts_of (x := Ex.eda.initGen Ex.rand.init) (g := fun g => g.rows[0]?)
    (y := some [1, 0]) (by decide +kernel)
  refine C45_nan_first_raises Ex.envF_valid hg hr ?_ (by intro h; exact absurd h (by decide +kernel))
  simp [Ex.costNan0, Flt.isNum_iff]

end Verif
