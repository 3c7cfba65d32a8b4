/-
The categorical algorithms: C27, C28, C29, C47, C56 and the categorical parts of C08, C15, C53.
-/
import Verif.Lemmas.Categorical
import Verif.Lemmas.Reuse
import Verif.Model.Examples

set_option linter.unusedSectionVars false

namespace Verif

open Spec PyCost

variable {α K : Type} [LinearOrder α] [Field K] [LinearOrder K] [IsStrictOrderedRing K]

section learn
variable {L : Type} [DecidableEq L]

/-- **C27** after `learn` (distinct variable names), the table of each variable is the empirical
distribution of its column: exactly the observed values, with their relative frequencies, which are
positive and sum to 1 (if there is at least one row). -/
theorem C27_learn_empirical {c c' : UniCat L α K} {data : Gen (List (Cat α))}
    (hn : c.vars.Nodup) (hr : Rect data.cols data.rows) (h : c.learn data = .ok c') :
    c'.vars = c.vars ∧ ∀ (k : ℕ) (l : L), c.vars[k]? = some l → ∃ t, c'.table l = some t ∧
      IsEmpirical (column data.rows k) t ∧ (column data.rows k).length = data.rows.length ∧
      (∀ v p, (v, p) ∈ t → 0 < p) ∧ (data.rows ≠ [] → (t.map Prod.snd).sum = 1) := by
  obtain ⟨h1, h2, h3, _⟩ := UniCat.learn_ok hn h
  refine ⟨h1, ?_⟩
  intro k l hk
  obtain ⟨t, ht, ho⟩ := h3 k l hk
  have hlen : (column data.rows k).length = data.rows.length := by
    have hkc : k < data.cols := lt_of_lt_of_le (List.getElem?_eq_some_iff.1 hk).1 h2
    have := congrArg List.length (filterMap_get_some (i := k) (cols := data.rows)
      (fun r h => by rw [hr r h]; exact hkc))
    simpa [column] using this
  refine ⟨t, ht, obtain_empirical ho, hlen, fun v p => obtain_pos ho, ?_⟩
  intro hne
  refine obtain_sum ho ?_
  intro h0
  rw [h0] at hlen
  exact hne (List.length_eq_zero_iff.1 hlen.symm)

/-- **C27** `learn` succeeds exactly when the dataset has a column for each variable and no column
mixes strings and integers. -/
theorem C27_learn_ok_iff {c : UniCat L α K} {data : Gen (List (Cat α))} (hn : c.vars.Nodup) :
    (∃ c', c.learn data = .ok c') ↔ c.vars.length ≤ data.cols ∧
      ∀ k < c.vars.length, (∀ v ∈ column data.rows k, v.isStr = true) ∨
        (∀ v ∈ column data.rows k, v.isStr = false) := by
  constructor
  · rintro ⟨c', h⟩
    obtain ⟨h1, h2, h3, _⟩ := UniCat.learn_ok hn h
    refine ⟨h2, fun k hk => ?_⟩
    obtain ⟨t, _, ho⟩ := h3 k _ (List.getElem?_eq_getElem hk)
    exact (obtain_ok ho).1
  · rintro ⟨h1, h2⟩
    exact UniCat.learn_isOk h1 h2

/-- The order of `np.unique`: integers by value, strings alphabetically; nothing else is comparable. -/
def Spec.CatLt : Cat α → Cat α → Prop
  | .int a, .int b => a < b
  | .str a, .str b => a < b
  | _, _ => False

theorem insertCat_sorted {l : List (Cat α)} {v : Cat α} (hs : l.Pairwise CatLt) (hv : v ∉ l)
    (ht : SameType (v :: l)) : (insertCat v l).Pairwise CatLt := by
  induction l with
  | nil => simp [insertCat]
  | cons w ws ih =>
    rw [List.pairwise_cons] at hs
    have hcmp : CatLt v w ∨ CatLt w v := by
      have hne : v ≠ w := fun h => hv (h ▸ List.mem_cons_self)
      rcases ht with ht | ht <;>
      · have h1 := ht v List.mem_cons_self
        have h2 := ht w (List.mem_cons_of_mem _ List.mem_cons_self)
        cases v <;> cases w <;> simp_all [Cat.isStr, CatLt, lt_or_lt_iff_ne]
    have htrans : ∀ a b c : Cat α, CatLt a b → CatLt b c → CatLt a c := by
      intro a b c h1 h2
      cases a <;> cases b <;> cases c <;> simp_all [CatLt]
      all_goals exact lt_trans h1 h2
    unfold insertCat
    split
    · rename_i hle
      have hlt : CatLt v w := by
        refine hcmp.resolve_right fun h => ?_
        cases v <;> cases w <;> simp_all [CatLt, Cat.le]
        all_goals exact absurd h (not_lt.2 hle)
      refine List.pairwise_cons.2 ⟨?_, List.pairwise_cons.2 hs⟩
      intro x hx
      rcases List.mem_cons.1 hx with rfl | hx
      · exact hlt
      · exact htrans _ _ _ hlt (hs.1 x hx)
    · rename_i hle
      have hlt : CatLt w v := by
        refine hcmp.resolve_left fun h => hle ?_
        cases v <;> cases w <;> simp_all [CatLt, Cat.le]
        all_goals exact h.le
      have hsub : SameType (v :: ws) := by
        rcases ht with ht | ht
        · exact .inl fun x hx => ht x (by rcases List.mem_cons.1 hx with rfl | hx <;> simp [*])
        · exact .inr fun x hx => ht x (by rcases List.mem_cons.1 hx with rfl | hx <;> simp [*])
      refine List.pairwise_cons.2 ⟨?_, ih hs.2 (fun h => hv (List.mem_cons_of_mem _ h)) hsub⟩
      intro x hx
      rcases List.mem_cons.1 ((insertCat_perm v ws).mem_iff.1 hx) with rfl | hx
      · exact hlt
      · exact hs.1 x hx

/-- **C27** the values in a learned table are in increasing order (which decides what a uniform number is
turned into when the table is sampled). -/
theorem C27_table_sorted {c c' : UniCat L α K} {data : Gen (List (Cat α))} (hn : c.vars.Nodup)
    (h : c.learn data = .ok c') : ∀ (k : ℕ) (l : L), c.vars[k]? = some l → ∃ t, c'.table l = some t ∧
      (t.map Prod.fst).Pairwise CatLt := by
  obtain ⟨_, _, h3, _⟩ := UniCat.learn_ok hn h
  intro k l hk
  obtain ⟨t, ht, ho⟩ := h3 k l hk
  refine ⟨t, ht, ?_⟩
  rw [obtain_keys ho]
  have hst := (obtain_ok ho).1
  unfold npUnique
  have hst' : SameType (column data.rows k).dedup := by
    rcases hst with h | h
    · exact .inl fun x hx => h x (List.mem_dedup.1 hx)
    · exact .inr fun x hx => h x (List.mem_dedup.1 hx)
  have hnd := List.nodup_dedup (column data.rows k)
  revert hst' hnd
  generalize (column data.rows k).dedup = d
  intro hst' hnd
  induction d with
  | nil => simp
  | cons v d ih =>
    rw [List.nodup_cons] at hnd
    have hd : SameType d := by
      rcases hst' with h | h
      · exact .inl fun x hx => h x (List.mem_cons_of_mem _ hx)
      · exact .inr fun x hx => h x (List.mem_cons_of_mem _ hx)
    have hperm : ∀ d : List (Cat α), (d.foldr insertCat []).Perm d := by
      intro d
      induction d with
      | nil => simp
      | cons v d ih => exact (insertCat_perm _ _).trans (ih.cons v)
    refine insertCat_sorted (ih hd hnd.2) (fun hm => hnd.1 ((hperm d).mem_iff.1 hm)) ?_
    rcases hst' with h | h
    · refine .inl fun x hx => h x ?_
      rcases List.mem_cons.1 hx with rfl | hx
      · exact List.mem_cons_self
      · exact List.mem_cons_of_mem _ ((hperm d).mem_iff.1 hx)
    · refine .inr fun x hx => h x ?_
      rcases List.mem_cons.1 hx with rfl | hx
      · exact List.mem_cons_self
      · exact List.mem_cons_of_mem _ ((hperm d).mem_iff.1 hx)

/-- **C27** after `learn` on at least one row, `sample` succeeds for every size, and every sampled
value was observed in the column of its variable. -/
theorem C27_sample_after_learn {c c' : UniCat L α K} {data : Gen (List (Cat α))} (hn : c.vars.Nodup)
    (hv : c.vars ≠ []) (hr : Rect data.cols data.rows) (hne : data.rows ≠ [])
    (h : c.learn data = .ok c') {size : ℤ} (hsz : 0 ≤ size) {ω : Draws K} (hω : Unit01 ω) :
    ∃ g, c'.sample size ω = .ok g ∧ (g.rows.length : ℤ) = size ∧ Rect c.vars.length g.rows ∧
      ∀ r ∈ g.rows, ∀ (j : ℕ) v, r[j]? = some v → v ∈ column data.rows j := by
  obtain ⟨h1, h2⟩ := C27_learn_empirical hn hr h
  obtain ⟨_, _, h3, _⟩ := UniCat.learn_ok hn h
  obtain ⟨g, hg⟩ := UniCat.sample_isOk (c := c') hsz hω (by rw [h1]; exact hn) (by rw [h1]; exact hv)
    (by
      intro l hl
      rw [h1] at hl
      obtain ⟨k, hk⟩ := List.mem_iff_getElem?.1 hl
      obtain ⟨t, ht, _, _, e2, e3⟩ := h2 k l hk
      obtain ⟨t', ht', ho⟩ := h3 k l hk
      rw [ht] at ht'
      obtain rfl := Option.some.inj ht'
      refine ⟨t, ht, ?_, ?_, e3 hne⟩
      · rw [obtain_keys ho]
        have hm : ∀ v ∈ npUnique (column data.rows k), v ∈ column data.rows k := fun v hv =>
          List.mem_dedup.1 ((npUnique_perm _).mem_iff.1 hv)
        rcases (obtain_ok ho).1 with hs | hs
        · exact .inl fun v hv => hs v (hm v hv)
        · exact .inr fun v hv => hs v (hm v hv)
      · intro x hx
        obtain ⟨⟨v, p⟩, hvp, rfl⟩ := List.mem_map.1 hx
        exact (e2 v p hvp).le)
  obtain ⟨_, _, g1, g2, g3, _, g4⟩ := UniCat.sample_ok hg
  rw [h1] at g1 g3
  refine ⟨g, hg, g2, g3, ?_⟩
  intro r hr' j v hj
  have hjl : j < c.vars.length := by
    rw [← g3 r hr']; exact (List.getElem?_eq_some_iff.1 hj).1
  obtain ⟨t, ht, _, hs⟩ := g4 j _ (by rw [h1]; exact List.getElem?_eq_getElem hjl)
  obtain ⟨t', ht', e1, _⟩ := h2 j _ (List.getElem?_eq_getElem hjl)
  rw [ht] at ht'
  obtain rfl := Option.some.inj ht'
  obtain ⟨q, hq, _⟩ := hs hω r hr' v hj
  exact (e1.observed v).1 (List.mem_map.2 ⟨_, hq, rfl⟩)

/-- Two variables; red 2/3, blue 1/3; small 1. -/
example : ∃ c' : UniCat ℕ ℕ ℚ, UniCat.learn (UniCat.new [0, 1])
    { dt := .object, cols := 2, rows := [[.str 7, .str 1], [.str 5, .str 1], [.str 7, .str 1]] } = .ok c' ∧
    c'.table 0 = some [(.str 5, 1/3), (.str 7, 2/3)] ∧ c'.table 1 = some [(.str 1, 1)] := by
  refine ⟨_, rfl, ?_, ?_⟩ <;> decide +kernel

end learn

section init

/-- **C29** exact condition: tables accepted by the constructor can be sampled iff all frequencies
are non-negative and each variable's frequencies sum to 1 up to `2^-26`. -/
theorem C29_sample_iff {s : CatSpace α K} {n : ℕ} {size : ℤ} {ω : Draws K} (hn : n ≠ 0)
    (hsz : 0 ≤ size) (hω : Unit01 ω) (hacc : s.check n = .ok ())
    (hty : s.objArr = true ∨ ∀ v ∈ s.vals, (∀ w ∈ v, w.isStr = true) ∨ (∀ w ∈ v, w.isStr = false)) :
    (∃ g, s.sample n size ω = .ok g) ↔
      ∀ (j : ℕ) (p : List K), j < n → s.freq[j]? = some p →
        (∀ x ∈ p, 0 ≤ x) ∧ |p.sum - 1| ≤ 1 / 2 ^ 26 := by
  constructor
  · rintro ⟨g, hg⟩ j p hj hp
    obtain ⟨_, _, _, _, _, h, _⟩ := CatSpace.sample_ok hg
    obtain ⟨v, p', _, hp', _, h1, h2, _⟩ := h j hj
    rw [hp] at hp'
    obtain rfl := Option.some.inj hp'
    exact ⟨h1, h2⟩
  · intro h
    refine CatSpace.sample_isOk hn hsz hω ?_
    intro j hj
    obtain ⟨v, p, hv, hp, hl, _⟩ := CatSpace.check_iff.1 hacc j hj
    obtain ⟨h1, h2⟩ := h j p hj hp
    refine ⟨v, p, hv, hp, hl, h1, h2, ?_⟩
    intro ho
    rcases hty with h | h
    · rw [ho] at h; cases h
    · exact h v (List.mem_of_getElem? hv)

/-- **C29** (the part that holds) whenever sampling succeeds there are `size` rows, and each value is
a possible value of its variable with positive frequency.  Missing: sampling need not succeed, see
`C29_sample_iff` and `C29_refuted`. -/
theorem C29_positive_frequency_partial {s : CatSpace α K} {n : ℕ} {size : ℤ} {ω : Draws K}
    {g : Gen (List (Cat α))} (hω : Unit01 ω) (h : s.sample n size ω = .ok g) :
    (g.rows.length : ℤ) = size ∧ Rect n g.rows ∧
    ∀ r ∈ g.rows, ∀ (j : ℕ) w, r[j]? = some w → ∃ v p, s.vals[j]? = some v ∧ s.freq[j]? = some p ∧
      ∃ (i : ℕ) (q : K), v[i]? = some w ∧ p[i]? = some q ∧ 0 < q := by
  obtain ⟨_, _, h2, h3, _, h4, _⟩ := CatSpace.sample_ok h
  refine ⟨h2, h3, ?_⟩
  intro r hr j w hj
  have hjn : j < n := by rw [← h3 r hr]; exact (List.getElem?_eq_some_iff.1 hj).1
  obtain ⟨v, p, e1, e2, _, _, _, _, e3⟩ := h4 j hjn
  exact ⟨v, p, e1, e2, e3 hω r hr w hj⟩

/-- The example of the documentation (umda_categorical.py:45-56): three variables with three
categories each and frequencies `.33, .33, .33`. -/
def Ex.docSpace : CatSpace ℕ ℚ :=
  { objArr := true
    vals := [[.str 0, .str 1, .str 2], [.str 3, .str 4, .str 5], [.str 6, .str 7, .str 8]]
    freq := [[33/100, 33/100, 33/100], [33/100, 33/100, 33/100], [33/100, 33/100, 33/100]] }

/-- **C29** is false: the frequencies of the documented example are accepted, and every attempt to
sample them is a `ValueError`. -/
theorem C29_refuted : Ex.docSpace.check 3 = .ok () ∧
    ∀ (size : ℤ) (ω : Draws ℚ), 0 ≤ size → Ex.docSpace.sample 3 size ω = .error .valueError := by
  refine ⟨by decide +kernel, ?_⟩
  intro size ω hsz
  have hp : (1 / 2 ^ 26 : ℚ) < |([33/100, 33/100, 33/100] : List ℚ).sum - 1| := by decide +kernel
  have hc : ∀ {β : Type} (vals : List β) (u : ℕ → ℚ),
      npChoice vals [33/100, 33/100, 33/100] size u = .error .valueError := by
    intro β vals u
    unfold npChoice
    split
    · rfl
    split
    · rfl
    split
    · rfl
    rfl
  have h0 : Ex.docSpace.sampleCol size ω 0 = .error .valueError := by
    unfold CatSpace.sampleCol
    simp only [Ex.docSpace, List.getElem?_cons_zero]
    rw [hc]; rfl
  unfold CatSpace.sample
  have : List.range 3 = 0 :: [1, 2] := rfl
  rw [this, List.mapM_cons, h0]; rfl

/-- A genuine distribution: accepted and sampled. -/
def Ex.catSpace : CatSpace ℕ ℚ :=
  { objArr := false, vals := [[.str 0, .str 1], [.str 3, .str 4, .str 5]],
    freq := [[1/4, 3/4], [1/2, 0, 1/2]] }

example : Ex.catSpace.check 2 = .ok () ∧ ∃ g, Ex.catSpace.sample 2 3 Ex.rand.init = .ok g ∧
    g.dt = .object ∧
    g.rows = [[.str 1, .str 5], [.str 1, .str 3], [.str 1, .str 5]] :=
  ⟨by decide +kernel, by
    have h : (Ex.catSpace.sample 2 3 Ex.rand.init).toOption.map (fun g => (g.dt, g.rows)) =
        some (.object, [[.str 1, .str 5], [.str 1, .str 3], [.str 1, .str 5]]) := by decide +kernel
    obtain ⟨g, h1, h2⟩ := Ex.facts_of h
    simp only [Prod.mk.injEq] at h2
    exact ⟨g, h1, h2⟩⟩

end init

section run
variable [FloorRing K] {σ : Type} {fl : K → K} {cfg : CatCfg α K}
variable {learn : σ → Gen (List (Cat α)) → Draws K → Except PyErr σ}
variable {sample : σ → Draws K → Except PyErr (Gen (List (Cat α)))}
variable {e : Eda (List (Cat α)) σ (Draws K)} {pm : σ}
variable {C : Type} [PyCost C] {env : Env C} {f : ℕ → List (Cat α) → C} {ftol : C}
variable {ρ : Rand (Draws K)}

/-- What construction of a categorical algorithm gives. -/
theorem catEda_ok (h : catEda fl cfg learn sample = .ok e) :
    MkOkG fl { cfg.base with wNoise := some (-1) } (fun _ => .ok addEmptyStr)
      (fun ω => cfg.space.sample cfg.base.nVars cfg.base.sizeGen ω)
      (fun c g _ ω => learn c g ω) sample e ∧ cfg.space.check cfg.base.nVars = .ok () := by
  unfold catEda at h
  split at h
  · cases h
  rename_i e' he
  split at h
  · cases h
  rename_i u hu
  obtain rfl := Except.ok.inj h
  exact ⟨mkEdaG_ok he, hu⟩

theorem catEda_mk (h : catEda fl cfg learn sample = .ok e) :
    mkEdaG fl { cfg.base with wNoise := some (-1) } (fun _ => .ok addEmptyStr)
      (fun ω => cfg.space.sample cfg.base.nVars cfg.base.sizeGen ω)
      (fun c g _ ω => learn c g ω) sample = .ok e := by
  unfold catEda at h
  split at h
  · cases h
  rename_i e' he
  split at h
  · cases h
  rename_i u hu
  obtain rfl := Except.ok.inj h
  exact he

/-- The model only samples values that occur in the column of the training set; `I` is an invariant
of the model. -/
structure CatSound (n : ℕ) (learn : σ → Gen (List (Cat α)) → Draws K → Except PyErr σ)
    (sample : σ → Draws K → Except PyErr (Gen (List (Cat α)))) (I : σ → Prop) : Prop where
  keep : ∀ {pm g ω pm'}, I pm → learn pm g ω = .ok pm' → I pm'
  sound : ∀ {pm g ω pm' ω' g'}, I pm → learn pm g ω = .ok pm' → sample pm' ω' = .ok g' →
    Unit01 ω' → ∀ r' ∈ g'.rows, r'.length = n ∧
      ∀ (j : ℕ) v, r'[j]? = some v → ∃ r ∈ g.rows, r[j]? = some v

/-- The value `v` is declared for variable `j`: in `init_data` if it was given, in `possible_values`
otherwise. -/
def CatCfg.Declared (cfg : CatCfg α K) (j : ℕ) (v : Cat α) : Prop :=
  match cfg.base.initData with
  | none => ∃ vs, cfg.space.vals[j]? = some vs ∧ v ∈ vs
  | some d => ∃ r ∈ d.rows, r[j]? = some v

/-- An individual that only uses declared categories. -/
def CatCfg.Legal (cfg : CatCfg α K) (r : List (Cat α)) : Prop :=
  r.length = cfg.base.nVars ∧ ∀ (j : ℕ) v, r[j]? = some v → cfg.Declared j v

/-- `init_data`, if given, is a rectangular array. -/
def CatCfg.WF (cfg : CatCfg α K) : Prop :=
  ∀ d, cfg.base.initData = some d → Rect d.cols d.rows

theorem cat_rowInv (h : catEda fl cfg learn sample = .ok e) (hw : cfg.WF) {I : σ → Prop}
    (hs : CatSound cfg.base.nVars learn sample I) (hi : Unit01 ρ.init)
    (hω : ∀ t, Unit01 (ρ.sample t)) :
    RowInv e ρ cfg.Legal (fun g => ∀ r ∈ g.rows, cfg.Legal r) I
      (fun pm' => ∃ pm g ω, I pm ∧ (∀ r ∈ g.rows, cfg.Legal r) ∧ learn pm g ω = .ok pm') := by
  obtain ⟨hm, hc⟩ := catEda_ok h
  constructor
  · intro g hg
    cases hd : cfg.base.initData with
    | none =>
      rw [hm.initNone hd] at hg
      obtain ⟨_, h2, h3⟩ := C29_positive_frequency_partial hi hg
      intro r hr
      refine ⟨h2 r hr, ?_⟩
      intro j v hj
      obtain ⟨vs, p, e1, _, i, q, e2, _⟩ := h3 r hr j v hj
      unfold CatCfg.Declared
      rw [hd]
      exact ⟨vs, e1, List.mem_of_getElem? e2⟩
    | some d =>
      obtain ⟨hcol, hini⟩ := hm.initSome d hd
      rw [hini] at hg
      obtain rfl := Except.ok.inj hg
      intro r hr
      refine ⟨by rw [hw d hd r hr]; exact hcol, ?_⟩
      intro j v hj
      unfold CatCfg.Declared
      rw [hd]
      exact ⟨r, hr, hj⟩
  · intro nz g g' hnz hg hgg
    rw [hm.mkNoise] at hnz
    rw [← Except.ok.inj hnz] at hgg
    rw [(addEmptyStr_ok hgg).1]; exact hg
  · intro pm g el t pm' hI hN _ hu
    rw [hm.updatePm] at hu
    exact ⟨hs.keep hI hu, pm, g, _, hI, hN, hu⟩
  · rintro pm' t g' hI ⟨pm, g, ω, hI0, hg, hl⟩ hsm
    rw [hm.sample] at hsm
    intro r' hr'
    obtain ⟨k1, k2⟩ := hs.sound hI0 hl hsm (hω t) r' hr'
    refine ⟨k1, ?_⟩
    intro j v hj
    obtain ⟨r, hr, hrj⟩ := k2 j v hj
    exact (hg r hr).2 j v hrj

/-- Runs with a sound model only evaluate declared categories. -/
theorem cat_values_declared (hv : env.Valid) (h : catEda fl cfg learn sample = .ok e) (hw : cfg.WF)
    {I : σ → Prop} (hs : CatSound cfg.base.nVars learn sample I) (hI : I pm) (hi : Unit01 ρ.init)
    (hω : ∀ t, Unit01 (ρ.sample t)) {res : EdaResult (List (Cat α)) C}
    {s : St (List (Cat α)) C σ} (hrun : minimize env e f ftol pm ρ = .ok (res, s)) :
    ∀ p ∈ s.log.flatten, cfg.Legal p.1 :=
  (allRows_minimize hv (cat_rowInv h hw hs hi hω) hI hrun).log

/-- Runs with a sound model never bring back a category that is absent from the selected
individuals. -/
theorem cat_absent_stays_absent (hv : env.Valid) (h : catEda fl cfg learn sample = .ok e)
    {I : σ → Prop} (hs : CatSound cfg.base.nVars learn sample I) (hI : I pm)
    (hω : ∀ t, Unit01 (ρ.sample t)) (he : 0 ≤ e.eliteLen) (het : e.eliteLen ≤ e.truncLen)
    {j : ℕ} {v : Cat α} {t : ℕ} {s s1 : St (List (Cat α)) C σ}
    (hvis : Visited env e f ftol pm ρ t s) (htr : truncation env e s = .ok s1)
    (hab : AbsentAt j v s1.gen.rows) {t' : ℕ} {s' s'' : St (List (Cat α)) C σ} {brk : Bool}
    {nz : Gen (List (Cat α)) → Except PyErr (Gen (List (Cat α)))} (ht : t ≤ t')
    (hvis' : Visited env e f ftol pm ρ t' s') (hnz : e.mkNoise ρ.noise = .ok nz)
    (hst : step env e f ftol ρ nz t' s' = .ok (s'', brk)) : AbsentAt j v s''.gen.rows := by
  obtain ⟨hm, _⟩ := catEda_ok h
  have hpm : ∀ {t s}, Visited env e f ftol pm ρ t s → I s.pm := by
    intro t s hvs
    refine visited_inv (fun s => I s.pm) ?_ ?_ hvs
    · intro s0 h0
      obtain ⟨_, _, _, _, _, hs0⟩ := start_ok h0
      rw [hs0.pm]; exact hI
    · intro noise t s s' b' hi _ hst
      obtain ⟨_, noisy, _, _, _, _, hs2⟩ := step_ok hst
      have := hs2.update
      rw [hm.updatePm] at this
      exact hs.keep hi this
  let Inv : St (List (Cat α)) C σ → Prop := fun s =>
    ∀ s1, truncation env e s = .ok s1 → AbsentAt j v s1.gen.rows
  have key : ∀ {t s s' nz b'}, Inv s → Visited env e f ftol pm ρ t s → e.mkNoise ρ.noise = .ok nz →
      step env e f ftol ρ nz t s = .ok (s', b') →
      AbsentAt j v s'.gen.rows ∧ AbsentAt j v s'.elite.rows := by
    intro t s s' nz b' hi hvs hnz hst
    obtain ⟨s1, noisy, _, _, _, _, hs2⟩ := step_ok hst
    have hsel := hi s1 hs2.trunc
    have hny := hs2.noise
    rw [hm.mkNoise] at hnz
    rw [← Except.ok.inj hnz] at hny
    rw [(addEmptyStr_ok hny).1] at hs2
    have hu := hs2.update
    rw [hm.updatePm] at hu
    have hsm := hs2.sample
    rw [hm.sample] at hsm
    have hI1 : I s.pm := hpm hvs
    constructor
    · intro r' hr' hrj
      obtain ⟨r, hr, h2⟩ := (hs.sound hI1 hu hsm (hω t) r' hr').2 j v hrj
      exact hsel r hr h2
    · rw [hs2.elite]
      intro r hr
      exact hsel r (truncation_elite_subset hv (visited_aligned hv hvs) hs2.trunc he het r hr)
  have hinv : Inv s' := by
    refine visited_from hvis Inv ?_ ?_ hvis' ht
    · intro s2 h2
      rw [htr] at h2
      obtain rfl := Except.ok.inj h2
      exact hab
    · intro nz t s s' hi hvs hnz hst
      obtain ⟨k1, k2⟩ := key hi hvs hnz hst
      have hvs' : Visited env e f ftol pm ρ (t + 1) s' := .next hvs hnz hst
      intro s2 h2 r hr
      rcases (truncation_rows hv (visited_aligned hv hvs') h2).1 r hr with h | h
      · exact k1 r h
      · exact k2 r h
  exact (key hinv hvis' hnz hst).1

/-- **C47** is false for integers: if all categories are integers (given as lists), no run of a
categorical algorithm (`UMDAcat`, `EBNA`, `BOA`: any model) with `max_iter ≥ 2` succeeds.  Once the
first generation is evaluated, the run ends with the `UFuncTypeError` of `generation += ""`. -/
theorem C47_integers_raise (h : catEda fl cfg learn sample = .ok e)
    (hd : cfg.base.initData = none) (ho : cfg.space.objArr = false)
    (hint : ∀ v ∈ cfg.space.vals, ∀ w ∈ v, w.isStr = false) (hmax : 2 ≤ cfg.base.maxIter)
    {s0 : St (List (Cat α)) C σ} (h0 : start env e f pm ρ = .ok s0) :
    minimize env e f ftol pm ρ = .error .ufuncType := by
  obtain ⟨hm, hc⟩ := catEda_ok h
  refine minimize_noise_error (by rw [hm.maxIter]; exact hmax) h0 (by rw [hm.mkNoise]) ?_
  intro s1 ht
  obtain ⟨_, _, _, _, _, hs0⟩ := start_ok h0
  have hg := hs0.init
  rw [hm.initNone hd] at hg
  obtain ⟨_, _, _, _, _, _, hdt, _⟩ := CatSpace.sample_ok hg
  have hdt : s0.gen.dt = .int := by
    refine hdt ho ?_
    intro j hj v hvj
    refine ⟨?_, hint v (List.mem_of_getElem? hvj)⟩
    rintro rfl
    obtain ⟨v', p, e1, e2, e3, e4⟩ := CatSpace.check_iff.1 hc j hj
    rw [hvj] at e1
    obtain rfl := Option.some.inj e1
    have hp : p = [] := List.length_eq_zero_iff.1 e3.symm
    subst hp
    have : (1 : K) ≤ 1 / 10 := by simpa using e4
    norm_num at this
  obtain ⟨_, _, _, hd1, _⟩ := truncation_shape ht
  have : s1.gen.dt = .int := by rw [hd1, hs0.elite, hdt]; rfl
  unfold addEmptyStr
  rw [this]

/-- **C47** the same for an object array of integers (as in the documented examples): the run ends
with a `TypeError`. -/
theorem C47_integer_objects_raise (hv : env.Valid) (h : catEda fl cfg learn sample = .ok e)
    (hd : cfg.base.initData = none) (ho : cfg.space.objArr = true) (hi : Unit01 ρ.init)
    (hint : ∀ v ∈ cfg.space.vals, ∀ w ∈ v, w.isStr = false) (hmax : 2 ≤ cfg.base.maxIter)
    (htr : 1 ≤ selLen fl cfg.base.sizeGen cfg.base.alpha)
    {s0 : St (List (Cat α)) C σ} (h0 : start env e f pm ρ = .ok s0) :
    minimize env e f ftol pm ρ = .error .typeError := by
  obtain ⟨hm, hc⟩ := catEda_ok h
  refine minimize_noise_error (by rw [hm.maxIter]; exact hmax) h0 (by rw [hm.mkNoise]) ?_
  intro s1 ht
  obtain ⟨_, r0, _, _, _, hs0⟩ := start_ok h0
  have hg := hs0.init
  rw [hm.initNone hd] at hg
  obtain ⟨hn0, _, _, hrect, _, _, _, hdt⟩ := CatSpace.sample_ok hg
  obtain ⟨_, _, hpos⟩ := C29_positive_frequency_partial hi hg
  have ha := start_aligned hv h0
  obtain ⟨_, _, _, hd1, _⟩ := truncation_shape ht
  have hobj : s1.gen.dt = .object := by rw [hd1, hs0.elite, hdt ho]; rfl
  have hlen := truncation_length hv ha ht (by
    rw [hm.truncLen]; show 0 ≤ selLen fl cfg.base.sizeGen cfg.base.alpha; omega)
  have hne : s1.gen.rows ≠ [] := by
    intro hnil
    rw [hnil, hs0.elite, hm.truncLen] at hlen
    simp only [List.length_nil, List.length_singleton] at hlen
    have h1 : 1 ≤ (selLen fl cfg.base.sizeGen cfg.base.alpha).toNat := by omega
    have h2 : selLen fl { cfg.base with wNoise := some (-1) }.sizeGen
      { cfg.base with wNoise := some (-1) }.alpha = selLen fl cfg.base.sizeGen cfg.base.alpha := rfl
    omega
  obtain ⟨r, rs, hrs⟩ := List.exists_cons_of_ne_nil hne
  have hr : r ∈ s0.gen.rows := by
    rcases (truncation_rows hv ha ht).1 r (by rw [hrs]; simp) with h | h
    · exact h
    · rw [hs0.elite] at h
      simp only [List.mem_singleton] at h
      subst h
      exact List.mem_of_getElem? hs0.row0
  have hrl : r.length = cfg.base.nVars := hrect r hr
  have h0l : 0 < r.length := by omega
  obtain ⟨v, p, e1, _, i, _, e2, _⟩ := hpos r hr 0 r[0] (List.getElem?_eq_getElem h0l)
  have hnot := hint v (List.mem_of_getElem? e1) r[0] (List.mem_of_getElem? e2)
  unfold addEmptyStr
  rw [hobj]
  simp only
  rw [if_neg]
  intro hall
  rw [List.all_eq_true] at hall
  have h1 := hall r (by rw [hrs]; simp)
  rw [List.all_eq_true] at h1
  have := h1 r[0] (List.getElem_mem h0l)
  rw [hnot] at this
  cases this

/-! ### `UMDAcat` -/

variable {e : Eda (List (Cat α)) (UniCat ℕ α K) (Draws K)} {b pm : UniCat ℕ α K}

theorem UMDAcat_ok (h : UMDAcat fl cfg = .ok (e, b)) :
    catEda fl cfg (fun c g _ => UniCat.learn c g)
      (fun c ω => UniCat.sample c cfg.base.sizeGen ω) = .ok e ∧
    b = UniCat.new (List.range cfg.base.nVars) := by
  unfold UMDAcat at h
  split at h
  · cases h
  rename_i e' he
  have := Except.ok.inj h
  simp only [Prod.mk.injEq] at this
  obtain ⟨rfl, rfl⟩ := this
  exact ⟨he, rfl⟩

theorem uniCat_sound (n : ℕ) (size : ℤ) :
    CatSound n (fun (c : UniCat ℕ α K) g (_ : Draws K) => UniCat.learn c g)
      (fun c ω => UniCat.sample c size ω) (fun c => c.vars = List.range n) := by
  constructor
  · intro pm g ω pm' hI hl
    rw [(UniCat.learn_ok (by rw [hI]; exact List.nodup_range) hl).1]; exact hI
  · intro pm g ω pm' ω' g' hI hl hs hω r' hr'
    obtain ⟨h1, _, h3, _⟩ := UniCat.learn_ok (by rw [hI]; exact List.nodup_range) hl
    obtain ⟨_, _, _, _, g3, _, g4⟩ := UniCat.sample_ok hs
    have hlen : pm'.vars.length = n := by rw [h1, hI, List.length_range]
    have hrl := g3 r' hr'
    refine ⟨by rw [hrl, hlen], ?_⟩
    intro j v hj
    have hjl : j < pm'.vars.length := by rw [← hrl]; exact (List.getElem?_eq_some_iff.1 hj).1
    obtain ⟨l, hk⟩ : ∃ l, pm'.vars[j]? = some l := ⟨_, List.getElem?_eq_getElem hjl⟩
    obtain ⟨t, ht, _, hs2⟩ := g4 j _ hk
    obtain ⟨q, hq, _⟩ := hs2 hω r' hr' v hj
    rw [h1] at hk
    obtain ⟨t', ht', ho⟩ := h3 j _ hk
    rw [ht] at ht'
    obtain rfl := Option.some.inj ht'
    have := ((obtain_empirical ho).observed v).1 (List.mem_map.2 ⟨_, hq, rfl⟩)
    unfold column at this
    obtain ⟨r, hr, h⟩ := List.mem_filterMap.1 this
    exact ⟨r, hr, h⟩

/-- **C28** every individual evaluated by `UMDAcat` has one value per variable, each declared in
`possible_values` (or present in `init_data`, if given). -/
theorem C28_values_declared (hv : env.Valid) (h : UMDAcat fl cfg = .ok (e, b)) (hw : cfg.WF)
    (hi : Unit01 ρ.init) (hω : ∀ t, Unit01 (ρ.sample t)) {res : EdaResult (List (Cat α)) C}
    {s : St (List (Cat α)) C (UniCat ℕ α K)} (hrun : minimize env e f ftol b ρ = .ok (res, s)) :
    ∀ p ∈ s.log.flatten, p.1.length = cfg.base.nVars ∧
      ∀ (j : ℕ) v, p.1[j]? = some v → cfg.Declared j v := by
  obtain ⟨he, hb⟩ := UMDAcat_ok h
  exact cat_values_declared hv he hw (uniCat_sound _ _) (by rw [hb]; rfl) hi hω hrun

/-- **C28** with `elite_length ≤ truncation_length`: a category absent from the selected individuals
of some iteration is absent from every later generation.  Missing: larger elites, for which the
claim is false (`C28_refuted`). -/
theorem C28_absent_category_partial (hv : env.Valid) (h : UMDAcat fl cfg = .ok (e, b))
    (hω : ∀ t, Unit01 (ρ.sample t)) (he : 0 ≤ e.eliteLen) (het : e.eliteLen ≤ e.truncLen)
    {j : ℕ} {v : Cat α} {t : ℕ} {s s1 : St (List (Cat α)) C (UniCat ℕ α K)}
    (hvis : Visited env e f ftol b ρ t s) (htr : truncation env e s = .ok s1)
    (hab : AbsentAt j v s1.gen.rows) {t' : ℕ} {s' s'' : St (List (Cat α)) C (UniCat ℕ α K)}
    {brk : Bool} {nz : Gen (List (Cat α)) → Except PyErr (Gen (List (Cat α)))} (ht : t ≤ t')
    (hvis' : Visited env e f ftol b ρ t' s') (hnz : e.mkNoise ρ.noise = .ok nz)
    (hst : step env e f ftol ρ nz t' s' = .ok (s'', brk)) : AbsentAt j v s''.gen.rows := by
  obtain ⟨hce, hb⟩ := UMDAcat_ok h
  exact cat_absent_stays_absent hv hce (uniCat_sound _ _) (by rw [hb]; rfl) hω he het hvis htr hab ht
    hvis' hnz hst

/-- **C15** for `UMDAcat`: on an object whose model was left in any state by earlier (complete or
interrupted) runs, `minimize` returns what it returns on the fresh object. -/
theorem C15_UMDAcat_rerun (h : UMDAcat fl cfg = .ok (e, b)) (hvars : pm.vars = b.vars)
    (hkeys : ∀ l, l ∉ b.vars → pm.table l = none) :
    (minimize env e f ftol pm ρ).map (fun x => (x.1, x.2.log)) =
      (minimize env e f ftol b ρ).map (fun x => (x.1, x.2.log)) := by
  obtain ⟨he, hb⟩ := UMDAcat_ok h
  obtain ⟨hm, _⟩ := catEda_ok he
  refine minimize_pm_irrelevant (Rel := fun a c => a.vars = c.vars ∧
    ∀ l, l ∉ a.vars → a.table l = c.table l) ?_ ⟨hvars, ?_⟩
  · rintro a c g el t ⟨h1, h2⟩
    rw [hm.updatePm]
    simp only
    unfold UniCat.learn
    rw [learnCats_dep (tbl2 := c.table) h2, h1]
  · intro l hl
    rw [hvars] at hl
    rw [hkeys l hl, hb]; rfl

/-- The models of objects that already ran are of this kind. -/
theorem reused_UMDAcat (h : UMDAcat fl cfg = .ok (e, b)) (hp : Reused e b pm) :
    pm.vars = b.vars ∧ ∀ l, l ∉ b.vars → pm.table l = none := by
  obtain ⟨he, hb⟩ := UMDAcat_ok h
  obtain ⟨hm, _⟩ := catEda_ok he
  induction hp with
  | fresh => exact ⟨rfl, fun l _ => by rw [hb]; rfl⟩
  | learned _ hu ih =>
    rw [hm.updatePm] at hu
    obtain ⟨i1, i2⟩ := ih
    obtain ⟨h1, _, _, h4⟩ := UniCat.learn_ok (by rw [i1, hb]; exact List.nodup_range) hu
    refine ⟨by rw [h1, i1], ?_⟩
    intro l hl
    rw [h4 l (by rw [i1]; exact hl)]; exact i2 l hl

/-- **C08** for `UMDAcat` without `init_data`: `n_fev` is the number of calls. -/
theorem C08_UMDAcat [LawfulCost C] [UniformCost C] (hv : env.Valid)
    (h : UMDAcat fl cfg = .ok (e, b)) (hd : cfg.base.initData = none)
    {res : EdaResult (List (Cat α)) C} {s : St (List (Cat α)) C (UniCat ℕ α K)}
    (hrun : minimize env e f ftol pm ρ = .ok (res, s)) : res.nFev = s.log.flatten.length := by
  obtain ⟨he, hb⟩ := UMDAcat_ok h
  refine mkEdaG_nfev hv (catEda_mk he) hd ?_ ?_ hrun
  · intro g hg
    exact (CatSpace.sample_ok hg).2.2.1
  · intro pm ω g hg
    exact (UniCat.sample_ok hg).2.2.2.1

/-- Arguments for which a categorical run cannot fail: `m` is a lower bound for the number of
individuals of a generation. -/
structure CatValid (cpu : ℕ) (fl : K → K) (cfg : CatCfg α K) (m : ℕ) : Prop where
  pos : 1 ≤ m
  dead : cfg.base.deadIter ≤ cfg.base.maxIter
  vars : cfg.base.nVars ≠ 0
  size : (m : ℤ) ≤ cfg.base.sizeGen
  cpu : cfg.base.parallel = true → cpu ≤ m
  trunc : 1 ≤ selLen fl cfg.base.sizeGen cfg.base.alpha
  space : ∀ j < cfg.base.nVars, ∃ v p, cfg.space.vals[j]? = some v ∧ cfg.space.freq[j]? = some p ∧
    v.length = p.length ∧ (∀ x ∈ p, 0 ≤ x) ∧ |p.sum - 1| ≤ 1 / 2 ^ 26 ∧ ∀ w ∈ v, w.isStr = true
  data : ∀ d, cfg.base.initData = some d → d.cols = cfg.base.nVars ∧ d.dt = .object ∧
    Rect d.cols d.rows ∧ m ≤ d.rows.length ∧ ∀ r ∈ d.rows, ∀ v ∈ r, v.isStr = true

/-- A generation of strings with the right number of columns. -/
structure CatGen (n : ℕ) (g : Gen (List (Cat α))) : Prop where
  cols : g.cols = n
  dt : g.dt = .object
  rect : Rect n g.rows
  str : ∀ r ∈ g.rows, ∀ v ∈ r, v.isStr = true

theorem cat_noRaise {cpu : ℕ} {m : ℕ} (hval : CatValid cpu fl cfg m)
    (h : UMDAcat fl cfg = .ok (e, b)) (hi : Unit01 ρ.init) (hω : ∀ t, Unit01 (ρ.sample t)) :
    NoRaise cpu e ρ m (CatGen cfg.base.nVars)
      (fun g => CatGen cfg.base.nVars g ∧ g.rows ≠ [])
      (fun c => c.vars = List.range cfg.base.nVars) := by
  obtain ⟨he, hb⟩ := UMDAcat_ok h
  obtain ⟨hm, _⟩ := catEda_ok he
  have hpos := hval.pos
  have hsize := hval.size
  constructor
  · exact hval.pos
  · rw [hm.truncLen]; exact hval.trunc
  · rw [hm.parallel]; exact hval.cpu
  · cases hd : cfg.base.initData with
    | none =>
      rw [hm.initNone hd]
      obtain ⟨g, hg⟩ := CatSpace.sample_isOk (s := cfg.space) (size := cfg.base.sizeGen) hval.vars
        (by omega) hi (fun j hj => by
          obtain ⟨v, p, k1, k2, k3, k4, k5, k6⟩ := hval.space j hj
          exact ⟨v, p, k1, k2, k3, k4, k5, fun _ => .inl k6⟩)
      obtain ⟨_, g1, g2, g3, _, g4, _⟩ := CatSpace.sample_ok hg
      refine ⟨g, hg, ⟨g1, ?_, g3, ?_⟩, by omega⟩
      · have h0 := Nat.pos_of_ne_zero hval.vars
        obtain ⟨v, p, k1, _, _, _, _, k6, _⟩ := g4 0 h0
        obtain ⟨v', p', k1', _, _, _, _, hstr⟩ := hval.space 0 h0
        rw [k1] at k1'
        obtain rfl := Option.some.inj k1'
        exact k6 hstr
      · intro r hr w hw
        obtain ⟨j, hj⟩ := List.mem_iff_getElem?.1 hw
        have hjn : j < cfg.base.nVars := by
          rw [← g3 r hr]; exact (List.getElem?_eq_some_iff.1 hj).1
        obtain ⟨v, p, k1, _, _, _, _, _, k7⟩ := g4 j hjn
        obtain ⟨v', p', k1', _, _, _, _, hstr⟩ := hval.space j hjn
        rw [k1] at k1'
        obtain rfl := Option.some.inj k1'
        obtain ⟨i, q, e1, _⟩ := k7 hi r hr w hj
        exact hstr w (List.mem_of_getElem? e1)
    | some d =>
      rw [(hm.initSome d hd).2]
      obtain ⟨d1, d2, d3, d4, d5⟩ := hval.data d hd
      exact ⟨d, rfl, ⟨d1, d2, by rw [← d1]; exact d3, d5⟩, d4⟩
  · intro g rows hG hsub
    exact ⟨hG.cols, hG.dt, fun r hr => hG.rect r (hsub r hr), fun r hr => hG.str r (hsub r hr)⟩
  · intro a c ha hc
    refine ⟨by rw [ha.cols, hc.cols], ha.cols, ?_, ?_, ?_⟩
    · simp only [ha.dt, DType.promote]
    · intro r hr
      rcases List.mem_append.1 hr with h | h
      · exact ha.rect r h
      · exact hc.rect r h
    · intro r hr
      rcases List.mem_append.1 hr with h | h
      · exact ha.str r h
      · exact hc.str r h
  · refine ⟨addEmptyStr, by rw [hm.mkNoise], ?_⟩
    intro g hG hne _
    exact ⟨g, addEmptyStr_isOk hG.dt hG.str, hG, hne⟩
  · rintro pm g el t hP ⟨hN, _⟩ _ _
    rw [hm.updatePm]
    obtain ⟨c', hc'⟩ := UniCat.learn_isOk (c := pm) (data := g)
      (by rw [hP, List.length_range, hN.cols]) (by
        intro k _
        left
        intro v hv
        obtain ⟨r, hr, hk⟩ := List.mem_filterMap.1 hv
        exact hN.str r hr v (List.mem_of_getElem? hk))
    refine ⟨c', hc', ?_⟩
    rw [(UniCat.learn_ok (by rw [hP]; exact List.nodup_range) hc').1, hP]
  · rintro pm t hP ⟨pm0, g, el, t', hP0, ⟨hN, hne⟩, _, hu⟩
    rw [hm.updatePm] at hu
    rw [hm.sample]
    simp only at hu
    obtain ⟨g', h1, h2, h3, h4⟩ := C27_sample_after_learn (by rw [hP0]; exact List.nodup_range)
      (by
        rw [hP0]
        intro h0
        have := congrArg List.length h0
        rw [List.length_range, List.length_nil] at this
        exact hval.vars this)
      (by rw [hN.cols]; exact hN.rect) hne hu (by omega : 0 ≤ cfg.base.sizeGen) (hω t)
    rw [hP0, List.length_range] at h3
    obtain ⟨_, _, g1, _, _, _, g4⟩ := UniCat.sample_ok h1
    have hstr : ∀ r ∈ g'.rows, ∀ v ∈ r, v.isStr = true := by
      intro r hr v hv
      obtain ⟨j, hj⟩ := List.mem_iff_getElem?.1 hv
      have := h4 r hr j v hj
      obtain ⟨r0, hr0, hk⟩ := List.mem_filterMap.1 this
      exact hN.str r0 hr0 v (List.mem_of_getElem? hk)
    refine ⟨g', h1, ⟨by rw [g1, hP, List.length_range], ?_, h3, hstr⟩, by omega⟩
    have h0 : (List.range cfg.base.nVars)[0]? = some 0 := by
      rw [List.getElem?_range (Nat.pos_of_ne_zero hval.vars)]
    obtain ⟨tb, ht, hobj, _⟩ := g4 0 0 (by rw [hP]; exact h0)
    refine hobj ?_
    obtain ⟨_, _, l3, _⟩ := UniCat.learn_ok (by rw [hP0]; exact List.nodup_range) hu
    obtain ⟨tb', ht', ho⟩ := l3 0 0 (by rw [hP0]; exact h0)
    rw [ht] at ht'
    obtain rfl := Option.some.inj ht'
    intro v hv
    have := ((obtain_empirical ho).observed v).1 hv
    obtain ⟨r0, hr0, hk⟩ := List.mem_filterMap.1 this
    exact hN.str r0 hr0 v (List.mem_of_getElem? hk)

/-- **C53** for `UMDAcat` with string categories: construction and every run succeed. -/
theorem C53_UMDAcat_never_raises [LawfulCost C] [UniformCost C] (hv : env.Valid) {m : ℕ}
    (hval : CatValid env.cpu fl cfg m) (hi : Unit01 ρ.init) (hω : ∀ t, Unit01 (ρ.sample t))
    (hnum : ∀ k r, IsNum (f k r)) :
    ∃ e b, UMDAcat fl cfg = .ok (e, b) ∧ ∃ res s, minimize env e f ftol b ρ = .ok (res, s) := by
  obtain ⟨e, he⟩ : ∃ e, mkEdaG fl { cfg.base with wNoise := some (-1) } (fun _ => .ok addEmptyStr)
      (fun ω => cfg.space.sample cfg.base.nVars cfg.base.sizeGen ω)
      (fun (c : UniCat ℕ α K) g _ (_ : Draws K) => c.learn g)
      (fun c ω => UniCat.sample c cfg.base.sizeGen ω) = .ok e :=
    mkEdaG_isOk.2 ⟨hval.dead, fun d hd => (hval.data d hd).1⟩
  have hc : cfg.space.check cfg.base.nVars = .ok () := by
    rw [CatSpace.check_iff]
    intro j hj
    obtain ⟨v, p, k1, k2, k3, k4, k5, _⟩ := hval.space j hj
    refine ⟨v, p, k1, k2, k3, k5.trans ?_⟩
    norm_num
  have h : UMDAcat fl cfg = .ok (e, UniCat.new (List.range cfg.base.nVars)) := by
    unfold UMDAcat catEda
    rw [he]
    simp only [hc]
  exact ⟨e, _, h, minimize_progress hv (cat_noRaise hval h hi hω) hnum rfl⟩

/-- **C47** (the part that holds) `UMDAcat` runs for categories that are strings, of any kind and
number.  Missing: integers, see `C47_integers_raise` and `C47_integer_objects_raise`; and `EBNA` and
`BOA`, whose Bayesian network library is not modelled. -/
theorem C47_strings_partial [LawfulCost C] [UniformCost C] (hv : env.Valid) {m : ℕ}
    (hval : CatValid env.cpu fl cfg m) (hi : Unit01 ρ.init) (hω : ∀ t, Unit01 (ρ.sample t))
    (hnum : ∀ k r, IsNum (f k r)) :
    ∃ e b, UMDAcat fl cfg = .ok (e, b) ∧ ∃ res s, minimize env e f ftol b ρ = .ok (res, s) :=
  C53_UMDAcat_never_raises hv hval hi hω hnum

/-! ### `EBNA` and `BOA` -/

/-- What is assumed of the Bayesian network library: a network fitted to a dataset has one column
per variable, and each value it simulates occurs in that column of the dataset. -/
def BNLib.Sound {σ : Type} (lib : BNLib σ α K) : Prop :=
  ∀ {score n g ω net size ω' g'}, lib.fit score (List.range n) g ω = .ok net →
    lib.simulate (some net) size ω' = .ok g' → ∀ r' ∈ g'.rows, r'.length = n ∧
      ∀ (j : ℕ) v, r'[j]? = some v → ∃ r ∈ g.rows, r[j]? = some v

theorem bnEda_ok {σ : Type} {lib : BNLib σ α K} {score : String}
    {e : Eda (List (Cat α)) (Option σ) (Draws K)} {b : Option σ}
    (h : bnEda fl lib score cfg = .ok (e, b)) :
    catEda fl cfg (fun _ g ω => (lib.fit score (List.range cfg.base.nVars) g ω).map some)
      (fun c ω => lib.simulate c cfg.base.sizeGen ω) = .ok e := by
  unfold bnEda at h
  split at h
  · cases h
  rename_i e' he
  have := Except.ok.inj h
  simp only [Prod.mk.injEq] at this
  obtain ⟨rfl, rfl⟩ := this
  exact he

theorem bn_sound {σ : Type} {lib : BNLib σ α K} (hl : lib.Sound) (score : String) (n : ℕ)
    (size : ℤ) : CatSound n
      (fun (_ : Option σ) g ω => (lib.fit score (List.range n) g ω).map some)
      (fun c ω => lib.simulate c size ω) (fun _ => True) := by
  constructor
  · intros; trivial
  · intro pm g ω pm' ω' g' _ h hs _
    cases hf : lib.fit score (List.range n) g ω with
    | error err => rw [hf] at h; cases h
    | ok net =>
      rw [hf] at h
      obtain rfl := Except.ok.inj h
      exact hl hf hs

/-- **C56** every individual evaluated by `EBNA` or `BOA` has one value per variable, each declared
in `possible_values` (or present in `init_data`, if given). -/
theorem C56_values_declared {σ : Type} {lib : BNLib σ α K} {score : String}
    {e : Eda (List (Cat α)) (Option σ) (Draws K)} {b pm : Option σ} (hl : lib.Sound)
    (hv : env.Valid) (h : bnEda fl lib score cfg = .ok (e, b)) (hw : cfg.WF)
    (hi : Unit01 ρ.init) (hω : ∀ t, Unit01 (ρ.sample t)) {res : EdaResult (List (Cat α)) C}
    {s : St (List (Cat α)) C (Option σ)} (hrun : minimize env e f ftol pm ρ = .ok (res, s)) :
    ∀ p ∈ s.log.flatten, p.1.length = cfg.base.nVars ∧
      ∀ (j : ℕ) v, p.1[j]? = some v → cfg.Declared j v :=
  cat_values_declared hv (bnEda_ok h) hw (bn_sound hl _ _ _) trivial hi hω hrun

/-- **C56** with `elite_length ≤ truncation_length`, a category absent from the selected individuals
of some iteration of `EBNA` or `BOA` is absent from every later generation. -/
theorem C56_absent_category {σ : Type} {lib : BNLib σ α K} {score : String}
    {e : Eda (List (Cat α)) (Option σ) (Draws K)} {b pm : Option σ} (hl : lib.Sound)
    (hv : env.Valid) (h : bnEda fl lib score cfg = .ok (e, b))
    (hω : ∀ t, Unit01 (ρ.sample t)) (he : 0 ≤ e.eliteLen) (het : e.eliteLen ≤ e.truncLen)
    {j : ℕ} {v : Cat α} {t : ℕ} {s s1 : St (List (Cat α)) C (Option σ)}
    (hvis : Visited env e f ftol pm ρ t s) (htr : truncation env e s = .ok s1)
    (hab : AbsentAt j v s1.gen.rows) {t' : ℕ} {s' s'' : St (List (Cat α)) C (Option σ)}
    {brk : Bool} {nz : Gen (List (Cat α)) → Except PyErr (Gen (List (Cat α)))} (ht : t ≤ t')
    (hvis' : Visited env e f ftol pm ρ t' s') (hnz : e.mkNoise ρ.noise = .ok nz)
    (hst : step env e f ftol ρ nz t' s' = .ok (s'', brk)) : AbsentAt j v s''.gen.rows :=
  cat_absent_stays_absent hv (bnEda_ok h) (bn_sound hl _ _ _) trivial hω he het hvis htr hab ht
    hvis' hnz hst

/-- The model of `EBNA` and `BOA` is discarded by each `learn`: reuse does not matter (**C15**). -/
theorem C15_BN_rerun {σ : Type} {lib : BNLib σ α K} {score : String}
    {e : Eda (List (Cat α)) (Option σ) (Draws K)} {b pm : Option σ}
    (h : bnEda fl lib score cfg = .ok (e, b)) :
    (minimize env e f ftol pm ρ).map (fun x => (x.1, x.2.log)) =
      (minimize env e f ftol b ρ).map (fun x => (x.1, x.2.log)) := by
  obtain ⟨hm, _⟩ := catEda_ok (bnEda_ok h)
  refine minimize_pm_irrelevant (Rel := fun _ _ => True) ?_ trivial
  intro a c g el t _
  rw [hm.updatePm]

end run

namespace Ex

/-- Two variables; half of 4 individuals is selected, one elite. -/
def catCfg : CatCfg ℕ ℚ :=
  { base := { sizeGen := 4, maxIter := 4, deadIter := 4, nVars := 2, alpha := 1/2,
              eliteFactor := 1/4, parallel := true, initData := none, wNoise := none }
    space := { objArr := false, vals := [[.str 0, .str 1], [.str 3, .str 4, .str 5]],
               freq := [[1/4, 3/4], [1/2, 0, 1/2]] } }

/-- A cost function on categories. -/
def catCost (_ : ℕ) (r : List (Cat ℕ)) : ℚ := if r[0]? = some (.str 1) then 2 else 3

theorem catCfg_ok : (UMDAcat id catCfg).toOption.isSome = true := by decide +kernel
def catEda0 : Eda (List (Cat ℕ)) (UniCat ℕ ℕ ℚ) (Draws ℚ) :=
  ((UMDAcat id catCfg).toOption.get catCfg_ok).1
def catPm0 : UniCat ℕ ℕ ℚ := ((UMDAcat id catCfg).toOption.get catCfg_ok).2
theorem catCfg_mk : UMDAcat id catCfg = .ok (catEda0, catPm0) := get_ok catCfg_ok

theorem rand_init_unit : Unit01 rand.init := by
  intro i j
  have h : rand.init i j = if (i + j) % 2 = 0 then (1/4 : ℚ) else 3/4 := rfl
  rw [h]
  split <;> norm_num

theorem catRun_facts : (minimize env catEda0 catCost 0 catPm0 rand).toOption.map
    (fun x => (x.1.history, x.1.bestCost, x.1.nFev, x.2.log.flatten.length)) =
    some ([2, 2, 2, 2], 2, 16, 16) := by decide +kernel

/-- The hypotheses of C28, C08, C53 and C15 are met by this configuration. -/
example : ∃ res s, minimize env catEda0 catCost 0 catPm0 rand = .ok (res, s) ∧ res.nFev = 16 ∧
    ∀ p ∈ s.log.flatten, p.1.length = 2 ∧ ∀ (j : ℕ) v, p.1[j]? = some v → catCfg.Declared j v := by
  obtain ⟨⟨res, s⟩, h, hf⟩ := facts_of catRun_facts
  simp only [Prod.mk.injEq] at hf
  exact ⟨res, s, h, hf.2.2.1, C28_values_declared env_valid catCfg_mk
    (by intro d hd; cases hd) rand_init_unit rand_unit h⟩

example : CatValid 2 id catCfg 4 := by
  refine ⟨by decide, by decide, by decide, by decide, fun _ => by decide, by decide +kernel, ?_, ?_⟩
  · intro j hj
    have : j = 0 ∨ j = 1 := by have : j < 2 := hj; omega
    rcases this with rfl | rfl
    · exact ⟨_, _, rfl, rfl, by decide +kernel⟩
    · exact ⟨_, _, rfl, rfl, by decide +kernel⟩
  · intro d hd; cases hd

/-- The same with integers for strings: construction and the first evaluation succeed, and the run
fails (`C47`). -/
def intCfg (objArr : Bool) : CatCfg ℕ ℚ :=
  { catCfg with space := { catCfg.space with objArr := objArr, vals := [[.int 0, .int 1], [.int 3, .int 4, .int 5]] } }

theorem intCfg_ok (b : Bool) : (UMDAcat id (intCfg b)).toOption.isSome = true := by
  cases b <;> decide +kernel
def intEda (b : Bool) : Eda (List (Cat ℕ)) (UniCat ℕ ℕ ℚ) (Draws ℚ) :=
  ((UMDAcat id (intCfg b)).toOption.get (intCfg_ok b)).1
def intPm (b : Bool) : UniCat ℕ ℕ ℚ := ((UMDAcat id (intCfg b)).toOption.get (intCfg_ok b)).2
theorem intCfg_mk (b : Bool) : UMDAcat id (intCfg b) = .ok (intEda b, intPm b) := get_ok (intCfg_ok b)
theorem intStart (b : Bool) :
    (start env (intEda b) catCost (intPm b) rand).toOption.isSome = true := by
  cases b <;> decide +kernel

/-- A library that satisfies the assumption: the "network" is the dataset, simulation repeats its
rows in order. -/
def bootLib : BNLib (Gen (List (Cat ℕ))) ℕ ℚ where
  fit _ vars g _ := if g.rows.all (fun r => r.length == vars.length) then .ok g else .error .valueError
  simulate
    | none, _, _ => .error .valueError
    | some g, size, _ =>
      .ok { g with rows := (List.range size.toNat).filterMap (fun i => g.rows[i % g.rows.length]?) }

theorem bootLib_sound : bootLib.Sound := by
  intro score n g ω net size ω' g' hf hs r' hr'
  simp only [bootLib] at hf hs
  split at hf
  · rename_i hall
    obtain rfl := Except.ok.inj hf
    obtain rfl := Except.ok.inj hs
    obtain ⟨i, _, hi⟩ := List.mem_filterMap.1 hr'
    have hm := List.mem_of_getElem? hi
    rw [List.all_eq_true] at hall
    have := hall r' hm
    simp only [List.length_range, beq_iff_eq] at this
    exact ⟨this, fun j v hj => ⟨r', hm, hj⟩⟩
  · cases hf

theorem bnCfg_ok : (EBNA id bootLib catCfg).toOption.isSome = true := by decide +kernel
def bnEda0 : Eda (List (Cat ℕ)) (Option (Gen (List (Cat ℕ)))) (Draws ℚ) :=
  ((EBNA id bootLib catCfg).toOption.get bnCfg_ok).1

theorem bnRun_facts : (minimize env bnEda0 catCost 0 none rand).toOption.map
    (fun x => (x.1.history, x.2.log.flatten.map (fun p => p.1))) =
    some ([2, 2, 2, 2], [[.str 1, .str 5], [.str 1, .str 3], [.str 1, .str 5], [.str 1, .str 3],
      [.str 1, .str 5], [.str 1, .str 3], [.str 1, .str 5], [.str 1, .str 3],
      [.str 1, .str 5], [.str 1, .str 3], [.str 1, .str 5], [.str 1, .str 3],
      [.str 1, .str 5], [.str 1, .str 3], [.str 1, .str 5], [.str 1, .str 3]]) := by decide +kernel

example : ∃ res s, minimize env bnEda0 catCost 0 none rand = .ok (res, s) ∧
    ∀ p ∈ s.log.flatten, p.1.length = 2 ∧ ∀ (j : ℕ) v, p.1[j]? = some v → catCfg.Declared j v := by
  obtain ⟨⟨res, s⟩, h, _⟩ := facts_of bnRun_facts
  exact ⟨res, s, h, C56_values_declared bootLib_sound env_valid (get_ok bnCfg_ok)
    (by intro d hd; cases hd) rand_init_unit rand_unit h⟩

theorem C28_env (l : List ℚ) (h : l = [1, 1, 1, 1]) :
    List.Perm [3, 0, 1, 2] (List.range l.length) ∧ [3, 0, 1, 2].Pairwise
      (fun i j => ∀ a b, l[i]? = some a → l[j]? = some b → LeNanLast a b) := by
  subst h
  refine ⟨by decide, ?_⟩
  have : ∀ (i : ℕ) (a : ℚ), [1, 1, 1, 1][i]? = some a → a = 1 := by
    intro i a hi
    have := List.mem_of_getElem? hi
    simpa using this
  have hp : ∀ i j : ℕ, ∀ a b : ℚ, [1, 1, 1, 1][i]? = some a → [1, 1, 1, 1][j]? = some b →
      LeNanLast a b := by
    intro i j a b ha hb
    rw [this i a ha, this j b hb]
    exact ⟨by decide +kernel, fun h => h⟩
  exact List.pairwise_of_forall (fun i j => hp i j)

/-- A valid sort that is not stable. -/
def unstable : Env ℚ :=
  { env with argsort := fun l => if l = [1, 1, 1, 1] then [3, 0, 1, 2] else stableArgsort l }

theorem unstable_valid : unstable.Valid where
  argsort := by
    constructor
    · intro l
      simp only [unstable]
      split
      · rename_i h; exact (C28_env l h).1
      · exact stableArgsort_isArgsort.perm l
    · intro l
      simp only [unstable]
      split
      · rename_i h; exact (C28_env l h).2
      · exact stableArgsort_isArgsort.sorted l
  cpu := env_valid.cpu
  sched := env_valid.sched

/-- One variable with two categories, two individuals, one selected, two elites. -/
def eliteCfg : CatCfg ℕ ℚ :=
  { base := { sizeGen := 2, maxIter := 4, deadIter := 4, nVars := 1, alpha := 1/2,
              eliteFactor := 1, parallel := false, initData := none, wNoise := none }
    space := { objArr := false, vals := [[.str 0, .str 1]], freq := [[1/2, 1/2]] } }
theorem eliteCfg_ok : (UMDAcat id eliteCfg).toOption.isSome = true := by decide +kernel
def eliteEda : Eda (List (Cat ℕ)) (UniCat ℕ ℕ ℚ) (Draws ℚ) :=
  ((UMDAcat id eliteCfg).toOption.get eliteCfg_ok).1
def elitePm : UniCat ℕ ℕ ℚ := ((UMDAcat id eliteCfg).toOption.get eliteCfg_ok).2

def eliteSel : Except PyErr (St (List (Cat ℕ)) ℚ (UniCat ℕ ℕ ℚ)) :=
  match start unstable eliteEda (fun _ _ => 1) elitePm rand with
  | .error err => .error err
  | .ok s => truncation unstable eliteEda s

theorem eliteSel_facts : eliteSel.toOption.map (fun s => s.gen.rows) = some [[.str 0]] := by
  decide +kernel
theorem eliteHead_facts : (heads unstable eliteEda (fun _ _ => 1) 0 elitePm rand 2).toOption.map
    (fun s => s.gen.rows) = some [[.str 1], [.str 1]] := by decide +kernel

end Ex

/-- **C47** is false: the arguments are accepted and the first generation is evaluated, then the run
raises; `UFuncTypeError` for lists of integers, `TypeError` for object arrays of integers. -/
theorem C47_refuted (b : Bool) : UMDAcat id (Ex.intCfg b) = .ok (Ex.intEda b, Ex.intPm b) ∧
    (∃ s0, start Ex.env (Ex.intEda b) Ex.catCost (Ex.intPm b) Ex.rand = .ok s0) ∧
    minimize Ex.env (Ex.intEda b) Ex.catCost 0 (Ex.intPm b) Ex.rand =
      .error (if b then .typeError else .ufuncType) := by
  obtain ⟨s0, h0⟩ := Ex.ok_of_isSome (Ex.intStart b)
  have hint : ∀ v ∈ (Ex.intCfg b).space.vals, ∀ w ∈ v, w.isStr = false := by
    cases b <;> decide
  refine ⟨Ex.intCfg_mk b, ⟨s0, h0⟩, ?_⟩
  have hm := (UMDAcat_ok (Ex.intCfg_mk b)).1
  cases b
  · exact C47_integers_raise hm rfl rfl hint (by decide) h0
  · exact C47_integer_objects_raise Ex.env_valid hm rfl rfl Ex.rand_init_unit hint (by decide)
      (by decide +kernel) h0

/-- **C28** is false for elites larger than the selection: category `1` is absent from the selected
individuals of the first iteration, yet the second iteration produces it. -/
theorem C28_refuted : ∃ (env : Env ℚ) (cfg : CatCfg ℕ ℚ) (e : Eda (List (Cat ℕ)) (UniCat ℕ ℕ ℚ) (Draws ℚ))
    (b : UniCat ℕ ℕ ℚ) (f : ℕ → List (Cat ℕ) → ℚ) (ρ : Rand (Draws ℚ)), env.Valid ∧
    UMDAcat id cfg = .ok (e, b) ∧ (∀ t, Unit01 (ρ.sample t)) ∧
    ∃ s s1 s' s'' nz, Visited env e f 0 b ρ 1 s ∧ truncation env e s = .ok s1 ∧
      AbsentAt 0 (.str 1) s1.gen.rows ∧ Visited env e f 0 b ρ 2 s' ∧ e.mkNoise ρ.noise = .ok nz ∧
      step env e f 0 ρ nz 2 s' = .ok (s'', false) ∧ ¬ AbsentAt 0 (.str 1) s''.gen.rows := by
  refine ⟨Ex.unstable, Ex.eliteCfg, Ex.eliteEda, Ex.elitePm, fun _ _ => 1, Ex.rand,
    Ex.unstable_valid, Ex.get_ok Ex.eliteCfg_ok, Ex.rand_unit, ?_⟩
  obtain ⟨s'', h2, h2f⟩ := Ex.facts_of Ex.eliteHead_facts
  obtain ⟨s', nz, h1, hn, hst⟩ := Ex.heads_step h2
  obtain ⟨s1, h3, h3f⟩ := Ex.facts_of Ex.eliteSel_facts
  unfold Ex.eliteSel at h3
  split at h3
  · cases h3
  rename_i s h0
  refine ⟨s, s1, s', s'', nz, .first h0, h3, ?_, Ex.heads_visited h1, hn, hst, ?_⟩
  · rw [h3f]
    intro r hr
    simp only [List.mem_singleton] at hr
    subst hr; decide
  · rw [h2f]
    intro h
    exact h [.str 1] (by simp) rfl

end Verif
