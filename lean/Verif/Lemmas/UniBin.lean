/-
Facts about the constructor, `UniBin` and `UMDAd`.
-/
import Verif.Lemmas.Run
import Verif.Model.UniBin
import Verif.Spec.Stats

set_option linter.unusedSectionVars false

namespace Verif

open Spec

variable {K : Type} [Field K] [LinearOrder K]

section baseG
variable [FloorRing K] {R σ Ω : Type} {fl : K → K} {cfg : BaseCfg K R}
variable {noise : Ω → Except PyErr (Gen R → Except PyErr (Gen R))}
variable {init : Ω → Except PyErr (Gen R)} {learn : σ → Gen R → Gen R → Ω → Except PyErr σ}
variable {sample : σ → Ω → Except PyErr (Gen R)} {e : Eda R σ Ω}

/-- What a successful construction gives, for any kind of individuals. -/
structure MkOkG (fl : K → K) (cfg : BaseCfg K R)
    (noise : Ω → Except PyErr (Gen R → Except PyErr (Gen R)))
    (init : Ω → Except PyErr (Gen R)) (learn : σ → Gen R → Gen R → Ω → Except PyErr σ)
    (sample : σ → Ω → Except PyErr (Gen R)) (e : Eda R σ Ω) : Prop where
  dead : cfg.deadIter ≤ cfg.maxIter
  sizeGen : e.sizeGen = cfg.sizeGen
  maxIter : e.maxIter = cfg.maxIter
  deadIter : e.deadIter = cfg.deadIter
  truncLen : e.truncLen = selLen fl cfg.sizeGen cfg.alpha
  eliteLen : e.eliteLen = selLen fl cfg.sizeGen cfg.eliteFactor
  parallel : e.parallel = cfg.parallel
  updatePm : e.updatePm = learn
  sample : e.sample = sample
  mkNoise : e.mkNoise = noise
  initNone : cfg.initData = none → e.initGen = init
  initSome : ∀ d, cfg.initData = some d → d.cols = cfg.nVars ∧ e.initGen = fun _ => .ok d

theorem mkEdaG_ok (h : mkEdaG fl cfg noise init learn sample = .ok e) :
    MkOkG fl cfg noise init learn sample e := by
  unfold mkEdaG at h
  split at h
  · simp at h
  rename_i hd
  simp only at h
  split at h
  · rename_i hn
    simp only [Except.ok.injEq] at h
    subst h
    exact ⟨by simpa using hd, rfl, rfl, rfl, rfl, rfl, rfl, rfl, rfl, rfl, fun _ => rfl,
      fun d h => by rw [hn] at h; simp at h⟩
  · rename_i d hn
    split at h
    · rename_i hc
      simp only [Except.ok.injEq] at h
      subst h
      refine ⟨by simpa using hd, rfl, rfl, rfl, rfl, rfl, rfl, rfl, rfl, rfl,
        fun h => ?_, fun d' h => ?_⟩
      · rw [hn] at h; simp at h
      · rw [hn] at h
        obtain rfl := Option.some.inj h
        exact ⟨hc, rfl⟩
    · simp at h

/-- The constructor succeeds iff `dead_iter ≤ max_iter` and `init_data` has `n_variables` columns. -/
theorem mkEdaG_isOk : (∃ e, mkEdaG fl cfg noise init learn sample = .ok e) ↔
    cfg.deadIter ≤ cfg.maxIter ∧ ∀ d, cfg.initData = some d → d.cols = cfg.nVars := by
  constructor
  · rintro ⟨e, h⟩
    have := mkEdaG_ok h
    exact ⟨this.dead, fun d hd => (this.initSome d hd).1⟩
  · rintro ⟨h1, h2⟩
    unfold mkEdaG
    rw [if_neg (by simpa using h1)]
    simp only
    split
    · exact ⟨_, rfl⟩
    · rename_i d hd
      rw [if_pos (h2 d hd)]; exact ⟨_, rfl⟩

end baseG

section base
variable [FloorRing K] {σ : Type} {fl : K → K} {cfg : BaseCfg K (List K)}
variable {init : Draws K → Except PyErr (Gen (List K))}
variable {learn : σ → Gen (List K) → Gen (List K) → Draws K → Except PyErr σ}
variable {sample : σ → Draws K → Except PyErr (Gen (List K))} {e : Eda (List K) σ (Draws K)}

/-- What a successful construction gives. -/
structure MkOk (fl : K → K) (cfg : BaseCfg K (List K))
    (init : Draws K → Except PyErr (Gen (List K)))
    (learn : σ → Gen (List K) → Gen (List K) → Draws K → Except PyErr σ)
    (sample : σ → Draws K → Except PyErr (Gen (List K))) (e : Eda (List K) σ (Draws K)) : Prop where
  dead : cfg.deadIter ≤ cfg.maxIter
  sizeGen : e.sizeGen = cfg.sizeGen
  maxIter : e.maxIter = cfg.maxIter
  deadIter : e.deadIter = cfg.deadIter
  truncLen : e.truncLen = selLen fl cfg.sizeGen cfg.alpha
  eliteLen : e.eliteLen = selLen fl cfg.sizeGen cfg.eliteFactor
  parallel : e.parallel = cfg.parallel
  updatePm : e.updatePm = learn
  sample : e.sample = sample
  mkNoise : ∀ ω, e.mkNoise ω =
    match mkWhiteNoise cfg.noiseAttr (selLen fl cfg.sizeGen cfg.alpha) cfg.nVars ω with
    | .error err => .error err
    | .ok nz => .ok (addNoise nz)
  initNone : cfg.initData = none → e.initGen = init
  initSome : ∀ d, cfg.initData = some d → d.cols = cfg.nVars ∧ e.initGen = fun _ => .ok d

theorem mkEda_ok (h : mkEda fl cfg init learn sample = .ok e) :
    MkOk fl cfg init learn sample e := by
  have hm := mkEdaG_ok h
  exact ⟨hm.dead, hm.sizeGen, hm.maxIter, hm.deadIter, hm.truncLen, hm.eliteLen, hm.parallel,
    hm.updatePm, hm.sample, fun ω => by rw [hm.mkNoise]; rfl, hm.initNone, hm.initSome⟩

/-- The constructor succeeds iff `dead_iter ≤ max_iter` and `init_data` has `n_variables` columns. -/
theorem mkEda_isOk : (∃ e, mkEda fl cfg init learn sample = .ok e) ↔
    cfg.deadIter ≤ cfg.maxIter ∧ ∀ d, cfg.initData = some d → d.cols = cfg.nVars := mkEdaG_isOk

end base

/-! ### Column sums -/

theorem getD_zipWith_add (a b : List K) (j n : ℕ) (ha : a.length = n) (hb : b.length = n) :
    (List.zipWith (· + ·) a b).getD j 0 = a.getD j 0 + b.getD j 0 := by
  simp only [List.getD_eq_getElem?_getD, List.getElem?_zipWith]
  rcases Nat.lt_or_ge j n with h | h
  · rw [List.getElem?_eq_getElem (by omega), List.getElem?_eq_getElem (by omega)]
    simp
  · rw [List.getElem?_eq_none (by omega), List.getElem?_eq_none (by omega)]
    simp

theorem foldl_add_getD (rs : List (List K)) (r : List K) (n j : ℕ) (hr : r.length = n)
    (hrs : Rect n rs) :
    (rs.foldl (List.zipWith (· + ·)) r).length = n ∧
    (rs.foldl (List.zipWith (· + ·)) r).getD j 0 = r.getD j 0 + (col rs j).sum := by
  induction rs generalizing r with
  | nil => simp [hr, col]
  | cons a rs ih =>
    have ha := hrs a (by simp)
    have := ih (List.zipWith (· + ·) r a) (by simp [hr, ha]) (fun x hx => hrs x (by simp [hx]))
    refine ⟨this.1, ?_⟩
    rw [List.foldl_cons, this.2, getD_zipWith_add _ _ _ n hr ha]
    simp [col, add_assoc]

theorem colSums_spec {data : List (List K)} {n : ℕ} (hne : data ≠ []) (hr : Rect n data) :
    (colSums data).length = n ∧ ∀ j, (colSums data).getD j 0 = (col data j).sum := by
  obtain ⟨r, rs, rfl⟩ := List.exists_cons_of_ne_nil hne
  have h := fun j => foldl_add_getD rs r n j (hr r (by simp)) (fun x hx => hr x (by simp [hx]))
  refine ⟨(h 0).1, fun j => ?_⟩
  rw [colSums, (h j).2]
  simp [col]

/-- Column sums of rows that all have the value `v` in column `j` (rows of any lengths). -/
theorem colSums_const {data : List (List K)} {j : ℕ} {v : K} (hne : data ≠ [])
    (h : ∀ r ∈ data, r[j]? = some v) : (colSums data)[j]? = some (data.length * v) := by
  obtain ⟨r, rs, rfl⟩ := List.exists_cons_of_ne_nil hne
  have key : ∀ (rs : List (List K)) (r : List K) (w : K), r[j]? = some w →
      (∀ x ∈ rs, x[j]? = some v) →
      (rs.foldl (List.zipWith (· + ·)) r)[j]? = some (w + rs.length * v) := by
    intro rs
    induction rs with
    | nil => intro r w hr _; simp [hr]
    | cons a rs ih =>
      intro r w hr hrs
      rw [List.foldl_cons, ih (List.zipWith (· + ·) r a) (w + v) (by
        rw [List.getElem?_zipWith, hr, hrs a (by simp)]) (fun x hx => hrs x (by simp [hx]))]
      simp only [List.length_cons, Nat.cast_add, Nat.cast_one]
      congr 1; ring
  rw [colSums, key rs r v (h r (by simp)) (fun x hx => h x (by simp [hx]))]
  simp only [List.length_cons, Nat.cast_add, Nat.cast_one]
  congr 1; ring

theorem clipProbs_getElem? (lb ub : K) (p : List K) (j : ℕ) (h : lb ≤ ub) :
    (clipProbs lb ub p)[j]? = p[j]?.map (clip lb ub) := by
  simp only [clipProbs, List.getElem?_map]
  cases p[j]? with
  | none => rfl
  | some x =>
    simp only [Option.map_some, Option.some.injEq, clip]
    by_cases h1 : x < lb
    · rw [if_pos h1, if_neg (not_lt.2 h)]
      rw [max_eq_left]
      exact (min_le_right _ _).trans h1.le
    · rw [if_neg h1]
      push Not at h1
      by_cases h2 : ub < x
      · rw [if_pos h2, min_eq_left h2.le, max_eq_right h]
      · rw [if_neg h2]; push Not at h2; rw [min_eq_right h2, max_eq_right h1]

theorem clipProbs_length (lb ub : K) (p : List K) : (clipProbs lb ub p).length = p.length := by
  simp [clipProbs]

/-! ### UniBin -/

theorem UniBin.new_ok {n : ℕ} {ub lb : K} {b : UniBin K} (h : UniBin.new n ub lb = .ok b) :
    lb < ub ∧ b = { n := n, lb := lb, ub := ub, p := List.replicate n 0 } := by
  unfold UniBin.new at h
  split at h
  · rename_i hlt
    simp only [Except.ok.injEq] at h
    exact ⟨hlt, h.symm⟩
  · simp at h

theorem UniBin.learn_ok {fl : K → K} {b b' : UniBin K} {data : List (List K)}
    (h : b.learn fl data = .ok b') :
    data ≠ [] ∧ b'.n = b.n ∧ b'.lb = b.lb ∧ b'.ub = b.ub ∧
    b'.p = clipProbs b.lb b.ub ((colSums data).map (fun x => fl (x / (data.length : K)))) := by
  unfold UniBin.learn at h
  cases data with
  | nil => simp at h
  | cons r rs =>
    simp only [Except.ok.injEq] at h
    subst h
    exact ⟨by simp, rfl, rfl, rfl, rfl⟩

theorem UniBin.sample_ok {b : UniBin K} {size : ℤ} {ω : Draws K} {g : Gen (List K)}
    (h : b.sample size ω = .ok g) :
    0 ≤ size ∧ g.dt = .int ∧ (g.rows.length : ℤ) = size ∧
    g.cols = (if b.p.length = 1 then b.n else b.p.length) ∧
    g.rows = (List.range size.toNat).map (fun i => binRow b.p b.n g.cols (ω i)) := by
  unfold UniBin.sample at h
  split at h
  · simp at h
  rename_i hs
  split at h
  · simp only [Except.ok.injEq] at h
    subst h
    refine ⟨by omega, rfl, ?_, rfl, rfl⟩
    simp; omega
  · simp at h

theorem UniBin.sample_of_length {b : UniBin K} {size : ℤ} {ω : Draws K} (hp : b.p.length = b.n)
    (hs : 0 ≤ size) : b.sample size ω = .ok
      { dt := .int
        cols := b.n
        rows := (List.range size.toNat).map (fun i => binRow b.p b.n b.n (ω i)) } := by
  unfold UniBin.sample
  rw [if_neg (by omega), if_pos (.inl hp)]
  simp only [hp, ite_self]

theorem binRow_length (p : List K) (n m : ℕ) (draw : ℕ → K) : (binRow p n m draw).length = m := by
  simp [binRow]

theorem binRow_binary (p : List K) (n m : ℕ) (draw : ℕ → K) : BinaryRow m (binRow p n m draw) := by
  refine ⟨binRow_length _ _ _ _, ?_⟩
  intro x hx
  simp only [binRow, List.mem_map] at hx
  obtain ⟨j, _, rfl⟩ := hx
  by_cases h : draw (if n = 1 then 0 else j) < p.getD (if p.length = 1 then 0 else j) 0
  · rw [if_pos h]; exact .inr rfl
  · rw [if_neg h]; exact .inl rfl

theorem binRow_getElem? (p : List K) (n m : ℕ) (draw : ℕ → K) (j : ℕ) (hj : j < m) :
    (binRow p n m draw)[j]? =
      some (if draw (if n = 1 then 0 else j) < p.getD (if p.length = 1 then 0 else j) 0
        then 1 else 0) := by
  simp [binRow, hj]

/-! ### UMDAd -/

section umdad
variable [FloorRing K] {fl : K → K} {cfg : UMDAdCfg K} {e : Eda (List K) (UniBin K) (Draws K)}
variable {b : UniBin K}

theorem UMDAd_ok (h : UMDAd fl cfg = .ok (e, b)) :
    MkOk fl { cfg.base with wNoise := some 0 } (fun ω => (umdadInit cfg).sample cfg.base.sizeGen ω)
      (fun b g _ _ => b.learn fl g.rows) (fun b ω => b.sample cfg.base.sizeGen ω) e ∧
    cfg.lower < cfg.upper ∧
    b = { n := cfg.base.nVars, lb := cfg.lower, ub := cfg.upper,
          p := List.replicate cfg.base.nVars 0 } := by
  unfold UMDAd at h
  simp only at h
  split at h
  · simp at h
  rename_i e' he
  split at h
  · simp at h
  rename_i b' hb
  simp only [Except.ok.injEq, Prod.mk.injEq] at h
  obtain ⟨rfl, rfl⟩ := h
  exact ⟨mkEda_ok he, UniBin.new_ok hb⟩

theorem UMDAd_mk (h : UMDAd fl cfg = .ok (e, b)) :
    mkEda fl { cfg.base with wNoise := some 0 }
      (fun ω => (umdadInit cfg).sample cfg.base.sizeGen ω)
      (fun b g _ _ => b.learn fl g.rows) (fun b ω => b.sample cfg.base.sizeGen ω) = .ok e := by
  unfold UMDAd at h
  split at h
  · simp at h
  rename_i e' he
  split at h
  · simp at h
  simp only [Except.ok.injEq, Prod.mk.injEq] at h
  rw [he, h.1]

/-- The noise step of `UMDAd` changes nothing. -/
theorem UMDAd_noise (h : UMDAd fl cfg = .ok (e, b)) {ω : Draws K}
    {nz : Gen (List K) → Except PyErr (Gen (List K))} (hn : e.mkNoise ω = .ok nz)
    {g g' : Gen (List K)} (hg : nz g = .ok g') : g' = g := by
  have hm := (UMDAd_ok h).1.mkNoise ω
  rw [hn] at hm
  simp only [BaseCfg.noiseAttr, mkWhiteNoise, if_true] at hm
  have hm := Except.ok.inj hm
  subst hm
  unfold addNoise at hg
  simp only at hg
  split at hg
  · simp at hg
  · exact (Except.ok.inj hg).symm

end umdad

end Verif
