/-
The categorical model samples the same law under any names of the categories.
-/
import Verif.Lemmas.Rename
import Verif.Lemmas.LawSim
import Verif.Props.Law

set_option linter.unusedSectionVars false

namespace Verif

open MeasureTheory ProbabilityTheory Spec

variable {α β : Type} [LinearOrder α] [LinearOrder β] {ren : ℕ → α → β}

section discrete

theorem measurableSet_cat (s : Set (Cat α)) : MeasurableSet s := trivial

instance : Nonempty (Cat α) := ⟨.int 0⟩

theorem measurable_cat {V : Type} [MeasurableSpace V] (h : Cat α → V) : Measurable h := fun _ _ => trivial

/-- The probability of a set of values. -/
theorem pickedFrom_map (h : Cat α → Cat β) (l : List (Cat α)) : (pickedFrom l).map h = pickedFrom (l.map h) := by
  have hm : Measurable h := measurable_cat h
  unfold pickedFrom
  rw [Measure.map_smul, List.length_map]
  congr 1
  induction l with
  | nil => simp
  | cons v l ih =>
    rw [List.map_cons, List.sum_cons, Measure.map_add _ _ hm, ih, Measure.map_dirac' hm, List.map_cons, List.map_cons,
      List.sum_cons]

theorem pickedFrom_outside (l : List (Cat α)) : pickedFrom l {v | v ∉ l} = 0 := by
  unfold pickedFrom
  rw [Measure.smul_apply]
  suffices h : ∀ l' : List (Cat α), (∀ v ∈ l', v ∈ l) → (l'.map Measure.dirac).sum {v | v ∉ l} = 0 by
    rw [h l fun v hv => hv, smul_zero]
  intro l' hl'
  induction l' with
  | nil => simp
  | cons v l' ih =>
    rw [List.map_cons, List.sum_cons, Measure.add_apply, ih fun w hw => hl' w (by simp [hw]), add_zero,
      Measure.dirac_apply' _ (measurableSet_cat _)]
    simp [hl' v (by simp)]

end discrete

section cells
variable {V : Type} {s n : ℕ}

/-- The generation with the given values. -/
def genOf (dt : DType) (x : Fin s × Fin n → V) : Gen (List V) :=
  { dt := dt, cols := n, rows := List.ofFn (fun i => List.ofFn (fun j => x (i, j))) }

theorem genOf_eq {g : Gen (List V)} {x : Fin s × Fin n → V} (hc : g.cols = n) (hl : g.rows.length = s)
    (hr : ∀ i : Fin s, ∃ r, g.rows[i]? = some r ∧ r.length = n ∧ ∀ j : Fin n, r[j]? = some (x (i, j))) :
    g = genOf g.dt x := by
  have hrows : g.rows = List.ofFn (fun i => List.ofFn (fun j => x (i, j))) := by
    refine List.ext_getElem (by simp [hl]) fun i hi hi' => ?_
    obtain ⟨r, h1, h2, h3⟩ := hr ⟨i, by omega⟩
    simp only [List.getElem_ofFn]
    change g.rows[i]? = some r at h1
    rw [List.getElem?_eq_getElem hi, Option.some.injEq] at h1
    rw [h1]
    refine List.ext_getElem (by simp [h2]) fun j hj hj' => ?_
    have := h3 ⟨j, by omega⟩
    change r[j]? = _ at this
    simp only [List.getElem_ofFn]
    rwa [List.getElem?_eq_getElem hj, Option.some.injEq] at this
  cases g
  simp only at hc hrows
  subst hc hrows
  rfl

theorem genOf_rename (dt : DType) (x : Fin s × Fin n → Cat α) :
    renameGen ren (genOf dt x) = genOf dt (fun c => renameCat (ren c.2) (x c)) := by
  unfold renameGen genOf
  simp only [List.map_ofFn]
  congr 2
  funext i
  simp only [Function.comp_apply, renameRow]
  refine List.ext_getElem (by simp) fun j hj hj' => ?_
  simp

theorem genOf_rel (dt : DType) (x : Fin s × Fin n → Cat α) :
    GenRel (RenRel ren n) n n (genOf dt x) (genOf dt (fun c => renameCat (ren c.2) (x c))) := by
  rw [← genOf_rename]
  refine ⟨rfl, rfl, rfl, renRel_rows.2 ⟨?_, rfl⟩⟩
  intro r hr
  simp only [genOf, List.mem_ofFn] at hr
  obtain ⟨i, rfl⟩ := hr
  simp

end cells

/-! ### The type of the sampled array -/

section
variable {K L : Type} [Field K] [LinearOrder K] [IsStrictOrderedRing K]

theorem UniCat.sample_dt [DecidableEq L] {c : UniCat L α K} {size : ℤ} {ω : Draws K} {g : Gen (List (Cat α))}
    (h : c.sample size ω = .ok g) : g.dt ≠ .float ∧
    (g.dt = .object ↔ ∃ l ∈ c.vars, ∃ t, c.table l = some t ∧ listDType (t.map Prod.fst) = .ok .object) := by
  unfold UniCat.sample at h
  split at h
  · cases h
  split at h
  · cases h
  rename_i cols hcols
  have hcl : ∀ c' ∈ cols, c'.2.length = size.toNat := by
    intro c' hc'
    obtain ⟨li, _, hli⟩ := mapME_mem hcols hc'
    obtain ⟨t, _, _, hch⟩ := UniCat.sampleCol_ok (d := c'.1) (col := c'.2) hli
    exact (npChoice_ok hch).2.2.2.2.1
  obtain ⟨_, _, _, _, _, h5, h6⟩ := frame_ok h hcl
  refine ⟨h6, h5.trans ⟨?_, ?_⟩⟩
  · rintro ⟨c', hc', ho⟩
    obtain ⟨⟨l, j⟩, hl, hli⟩ := mapME_mem hcols hc'
    obtain ⟨t, ht, hd, _⟩ := UniCat.sampleCol_ok (d := c'.1) (col := c'.2) hli
    refine ⟨l, ?_, t, ht, by rw [hd, ho]⟩
    obtain ⟨_, _, hx⟩ := List.mem_zipIdx hl
    rw [hx]; exact List.getElem_mem _
  · rintro ⟨l, hl, t, ht, hd⟩
    obtain ⟨j, hj, rfl⟩ := List.mem_iff_getElem.1 hl
    have hj' : j < cols.length := by rw [mapME_length hcols, List.length_zipIdx]; exact hj
    obtain ⟨li, hli, hf⟩ := mapME_get hcols (List.getElem?_eq_getElem hj')
    rw [List.getElem?_zipIdx, List.getElem?_eq_getElem hj] at hli
    simp only [Option.map_some, Option.some.injEq, Nat.zero_add] at hli
    subst hli
    obtain ⟨t', ht', hd', _⟩ := UniCat.sampleCol_ok (d := cols[j].1) (col := cols[j].2) hf
    simp only at ht'
    rw [ht] at ht'
    obtain rfl := Option.some.inj ht'
    rw [hd] at hd'
    exact ⟨cols[j], List.getElem_mem hj', (Except.ok.inj hd').symm⟩

theorem listDType_object {vals : List (Cat α)} : listDType vals = .ok .object ↔ ∀ v ∈ vals, v.isStr = true := by
  unfold listDType
  split
  · rename_i h; simpa using h
  · rename_i h
    constructor
    · split
      · intro h'; cases h'
      · intro h'; cases h'
    · intro h'
      exact absurd (List.all_eq_true.2 h') h

/-- The arrays sampled by related models have the same type. -/
theorem renModel_dt {n : ℕ} {m : UniCat ℕ α K} {m' : UniCat ℕ β K} (h : RenModel ren n m m') {size size' : ℤ}
    {ω ω' : Draws K} {g : Gen (List (Cat α))} {g' : Gen (List (Cat β))} (hg : m.sample size ω = .ok g)
    (hg' : m'.sample size' ω' = .ok g') : g'.dt = g.dt := by
  obtain ⟨h1, h2, rows, _, h3⟩ := renModel_tables h
  obtain ⟨a1, a2⟩ := UniCat.sample_dt hg
  obtain ⟨b1, b2⟩ := UniCat.sample_dt hg'
  have hiff : g'.dt = .object ↔ g.dt = .object := by
    rw [a2, b2, h1, h2]
    refine exists_congr fun l => and_congr_right fun hl => ?_
    obtain ⟨t, t', e1, e2, e3, e4⟩ := h3 l (List.mem_range.1 hl)
    have k1 := (obtain_empirical e3).observed
    have k2 := (obtain_empirical e4).observed
    simp only [e1, e2, Option.some.injEq, exists_eq_left', listDType_object]
    constructor
    · intro h v hv
      have := h (renameCat (ren l) v) ((k2 _).2 (List.mem_map.2 ⟨v, (k1 v).1 hv, rfl⟩))
      rwa [renameCat_isStr] at this
    · intro h v hv
      obtain ⟨w, hw, rfl⟩ := List.mem_map.1 ((k2 v).1 hv)
      rw [renameCat_isStr]
      exact h w ((k1 w).2 hw)
  cases hd : g.dt <;> cases hd' : g'.dt <;> simp_all

/-! ### Samples that raise -/

theorem uniCat_sample_zero {m : UniCat ℕ α K} (hv : m.vars = List.range 0) (size : ℤ) (ω : Draws K) :
    m.sample size ω = .error .notModelled := by
  unfold UniCat.sample
  rw [hv, if_neg (not_not.2 List.nodup_range)]
  rfl

theorem uniCat_sample_valueError {n : ℕ} (hn : n ≠ 0) {m : UniCat ℕ α K} (hv : m.vars = List.range n)
    {t : List (Cat α × K)} (ht : m.table 0 = some t) (hs : SameType (t.map Prod.fst)) {size : ℤ}
    (hc : t = [] ∨ size < 0) (ω : Draws K) : m.sample size ω = .error .valueError := by
  obtain ⟨k, rfl⟩ : ∃ k, n = k + 1 := ⟨n - 1, by omega⟩
  have hcol : m.sampleCol size ω 0 0 = .error .valueError := by
    unfold UniCat.sampleCol
    rw [ht]
    obtain ⟨dt, hdt⟩ := listDType_isOk hs
    simp only [hdt]
    have : npChoice (t.map Prod.fst) (t.map Prod.snd) size (fun i => ω i 0) = .error .valueError := by
      unfold npChoice
      split
      · rfl
      split
      · rfl
      split
      · rfl
      split
      · rfl
      rename_i h4
      rcases hc with rfl | hc
      · exfalso
        apply h4
        norm_num
      · rw [if_pos hc]
    rw [this]
  unfold UniCat.sample
  rw [hv, if_neg (not_not.2 List.nodup_range), List.range_succ_eq_map, List.zipIdx_cons, List.mapM_cons, hcol]
  rfl

end

/-! ### The law -/

/-- The models learned from the same data with other names sample the same law, up to the names. -/
theorem renModel_law [Countable α] (hren : ∀ j, Function.Injective (ren j)) {n : ℕ} {m : UniCat ℕ α ℝ}
    {m' : UniCat ℕ β ℝ} (h : RenModel ren n m m') (size : ℤ) {D : Measure (Draws ℝ)} [IsProbabilityMeasure D]
    (hD : IndepDraws D (fun _ => unif01) (fun ω => ω)) :
    ∃ (ι : Type) (_ : Countable ι) (X X' : Draws ℝ → ι) (G : ι → Except PyErr (Gen (List (Cat α))))
      (G' : ι → Except PyErr (Gen (List (Cat β)))),
      (∀ x, NullMeasurableSet (X ⁻¹' {x}) D) ∧ (∀ x, NullMeasurableSet (X' ⁻¹' {x}) D) ∧
      (∀ x, D (X ⁻¹' {x}) = D (X' ⁻¹' {x})) ∧ (∀ x, ExRel (GenRel (RenRel ren n) n n) (G x) (G' x)) ∧
      (∀ᵐ ω ∂D, m.sample size ω = G (X ω)) ∧ ∀ᵐ ω ∂D, m'.sample size ω = G' (X' ω) := by
  obtain ⟨h1, h2, _, _, h3⟩ := renModel_tables h
  have hconst : ∀ err : PyErr, (∀ ω, m.sample size ω = .error err) → (∀ ω, m'.sample size ω = .error err) →
      ∃ (ι : Type) (_ : Countable ι) (X X' : Draws ℝ → ι) (G : ι → Except PyErr (Gen (List (Cat α))))
        (G' : ι → Except PyErr (Gen (List (Cat β)))),
        (∀ x, NullMeasurableSet (X ⁻¹' {x}) D) ∧ (∀ x, NullMeasurableSet (X' ⁻¹' {x}) D) ∧
        (∀ x, D (X ⁻¹' {x}) = D (X' ⁻¹' {x})) ∧ (∀ x, ExRel (GenRel (RenRel ren n) n n) (G x) (G' x)) ∧
        (∀ᵐ ω ∂D, m.sample size ω = G (X ω)) ∧ ∀ᵐ ω ∂D, m'.sample size ω = G' (X' ω) := by
    intro err e1 e2
    exact ⟨Unit, inferInstance, fun _ => (), fun _ => (), fun _ => .error err, fun _ => .error err,
      fun _ => (MeasurableSet.const _).nullMeasurableSet, fun _ => (MeasurableSet.const _).nullMeasurableSet,
      fun _ => rfl, fun _ => .error _, .of_forall e1, .of_forall e2⟩
  rcases Nat.eq_zero_or_pos n with rfl | hn
  · exact hconst .notModelled (uniCat_sample_zero h1 size) (uniCat_sample_zero h2 size)
  have hmodel := h
  obtain ⟨c, c', g, g', hc, hc', hg, hm, hm'⟩ := h
  obtain ⟨hr, hr'⟩ := renRel_rows.1 hg.rows
  obtain ⟨t0, t0', z1, z2, z3, z4⟩ : ∃ t t', m.table 0 = some t ∧ m'.table 0 = some t' ∧
      obtainProbabilities (column g.rows 0) = .ok t ∧
      obtainProbabilities ((column g.rows 0).map (renameCat (ren 0))) = .ok t' := by
    obtain ⟨_, _, a3, _⟩ := UniCat.learn_ok (by rw [hc]; exact List.nodup_range) hm
    obtain ⟨_, _, b3, _⟩ := UniCat.learn_ok (by rw [hc']; exact List.nodup_range) hm'
    obtain ⟨t, ht, ho⟩ := a3 0 0 (by rw [hc]; simp [hn])
    obtain ⟨t', ht', ho'⟩ := b3 0 0 (by rw [hc']; simp [hn])
    rw [hr', column_rename] at ho'
    exact ⟨t, t', ht, ht', ho, ho'⟩
  have hs0 : SameType (t0.map Prod.fst) := by
    have hk := (obtain_empirical z3).observed
    rcases (obtain_ok z3).1 with hs | hs
    · exact .inl fun v hv => hs v ((hk v).1 hv)
    · exact .inr fun v hv => hs v ((hk v).1 hv)
  have hs0' : SameType (t0'.map Prod.fst) := by
    have hk := (obtain_empirical z4).observed
    rcases (obtain_ok z4).1 with hs | hs
    · exact .inl fun v hv => hs v ((hk v).1 hv)
    · exact .inr fun v hv => hs v ((hk v).1 hv)
  rcases lt_or_ge size 0 with hsz | hsz
  · exact hconst .valueError (uniCat_sample_valueError hn.ne' h1 z1 hs0 (.inr hsz))
      (uniCat_sample_valueError hn.ne' h2 z2 hs0' (.inr hsz))
  by_cases hne : g.rows = []
  · have e1 : t0 = [] := by
      have := obtain_keys z3
      rw [hne] at this
      exact List.map_eq_nil_iff.1 (this.trans rfl)
    have e2 : t0' = [] := by
      have := obtain_keys z4
      rw [hne] at this
      exact List.map_eq_nil_iff.1 (this.trans rfl)
    exact hconst .valueError (uniCat_sample_valueError hn.ne' h1 z1 hs0 (.inl e1))
      (uniCat_sample_valueError hn.ne' h2 z2 hs0' (.inl e2))
  -- the laws of the values
  have hl := C74_UMDAcat (size := size) hD (by rw [hc]; exact List.nodup_range)
    (by rw [hc]; simp; omega) (by rw [hg.cols]; exact hr) hne hm hsz
  have hl' := C74_UMDAcat (size := size) hD (by rw [hc']; exact List.nodup_range)
    (by rw [hc']; simp; omega) (by
      rw [hg.cols', hr']
      intro r hr1
      obtain ⟨r0, h0, rfl⟩ := List.mem_map.1 hr1
      rw [length_renameRow]; exact hr r0 h0) (by rw [hr']; simpa using hne) hm' hsz
  have hcl : c.vars.length = n := by rw [hc, List.length_range]
  have hcl' : c'.vars.length = n := by rw [hc', List.length_range]
  rw [hcl] at hl
  rw [hcl'] at hl'
  obtain ⟨X, xa, xi, xl⟩ := hl
  obtain ⟨X', xa', xi', xl'⟩ := hl'
  set back : Fin n → Cat β → Cat α := fun j => Function.invFun (renameCat (ren j)) with hback
  have hlaw : ∀ (i : Fin size.toNat) (j : Fin n) (v : Cat α),
      D (X' (i, j) ⁻¹' (back j ⁻¹' {v})) = D (X (i, j) ⁻¹' {v}) := by
    intro i j v
    have p1 := (xl' i j).map_eq
    have p2 := (xl i j).map_eq
    have q1 : D (X' (i, j) ⁻¹' (back j ⁻¹' {v})) = (D.map (X' (i, j))) (back j ⁻¹' {v}) :=
      (Measure.map_apply_of_aemeasurable (xl' i j).aemeasurable (measurableSet_cat _)).symm
    have q2 : D (X (i, j) ⁻¹' {v}) = (D.map (X (i, j))) {v} :=
      (Measure.map_apply_of_aemeasurable (xl i j).aemeasurable (measurableSet_cat _)).symm
    rw [q1, q2, p1, p2]
    simp only
    rw [hr', column_rename, ← Measure.map_apply (measurable_cat _) (measurableSet_cat _), pickedFrom_map,
      List.map_map]
    congr 2
    conv_rhs => rw [← List.map_id (column g.rows j)]
    refine List.map_congr_left fun w _ => ?_
    exact Function.leftInverse_invFun (renameCat_injective (hren j)) w
  have hin : ∀ᵐ ω ∂D, ∀ c : Fin size.toNat × Fin n, renameCat (ren c.2) (back c.2 (X' c ω)) = X' c ω := by
    refine ae_all_iff.2 fun cell => ?_
    obtain ⟨i, j⟩ := cell
    have p1 := (xl' i j).map_eq
    have hnull : (D.map (X' (i, j))) {v | v ∉ column g'.rows j} = 0 := by
      rw [p1]; exact pickedFrom_outside _
    have := ae_of_ae_map (xl' i j).aemeasurable (p := fun v => v ∈ column g'.rows j)
      (measure_eq_zero_iff_ae_notMem.1 hnull |>.mono fun v hv => by simpa using hv)
    filter_upwards [this] with ω hω
    rw [hr', column_rename] at hω
    obtain ⟨w, _, hw⟩ := List.mem_map.1 hω
    exact Function.invFun_eq ⟨w, hw⟩
  -- both samplers succeed somewhere
  obtain ⟨ω0, g0, hg0, _⟩ := (xa.exists)
  obtain ⟨ω1, g1, hg1, _⟩ := (xa'.exists)
  have hdt : ∀ ω gω, m.sample size ω = .ok gω → gω.dt = g0.dt := by
    intro ω gω hω
    rw [← renModel_dt hmodel hω hg1, renModel_dt hmodel hg0 hg1]
  have hdt' : ∀ ω gω, m'.sample size ω = .ok gω → gω.dt = g0.dt := fun ω gω hω => renModel_dt hmodel hg0 hω
  have hmeas : ∀ (Y : Fin size.toNat × Fin n → Draws ℝ → Cat α), (∀ c, AEMeasurable (Y c) D) →
      ∀ x, NullMeasurableSet ((fun ω c => Y c ω) ⁻¹' {x}) D := by
    intro Y hY x
    have : ((fun ω c => Y c ω) ⁻¹' {x}) = ⋂ c, Y c ⁻¹' {x c} := by
      ext ω
      simp [funext_iff]
    rw [this]
    exact NullMeasurableSet.iInter fun c => (hY c).nullMeasurableSet_preimage (measurableSet_cat _)
  refine ⟨Fin size.toNat × Fin n → Cat α, ?_, fun ω c => X c ω, fun ω c => back c.2 (X' c ω),
    fun x => .ok (genOf g0.dt x), fun x => .ok (genOf g0.dt (fun c => renameCat (ren c.2) (x c))), ?_, ?_, ?_,
    fun x => .ok (genOf_rel _ x), ?_, ?_⟩
  · have : Countable (Cat α) := by
      refine Function.Injective.countable (f := fun v : Cat α =>
        (match v with | .str a => Sum.inl a | .int z => Sum.inr z : α ⊕ ℤ)) ?_
      intro v w hvw
      cases v <;> cases w <;> simp_all
    infer_instance
  · exact hmeas X fun c => (xl c.1 c.2).aemeasurable
  · exact hmeas (fun c ω => back c.2 (X' c ω)) fun c =>
      (measurable_cat (back c.2)).comp_aemeasurable (xl' c.1 c.2).aemeasurable
  · intro x
    have s1 : ((fun ω c => X c ω) ⁻¹' {x}) = ⋂ c ∈ Finset.univ, X c ⁻¹' {x c} := by
      ext ω
      simp [funext_iff]
    have s2 : ((fun ω (c : Fin size.toNat × Fin n) => back c.2 (X' c ω)) ⁻¹' {x}) =
        ⋂ c ∈ Finset.univ, X' c ⁻¹' (back c.2 ⁻¹' {x c}) := by
      ext ω
      simp [funext_iff]
    rw [s1, s2, xi.measure_inter_preimage_eq_mul Finset.univ (fun c _ => measurableSet_cat _),
      xi'.measure_inter_preimage_eq_mul Finset.univ (fun c _ => measurableSet_cat _)]
    exact Finset.prod_congr rfl fun c _ => (hlaw c.1 c.2 (x c)).symm
  · filter_upwards [xa] with ω hω
    obtain ⟨gω, e1, e2, e3, e4⟩ := hω
    rw [e1, ← hdt ω gω e1, ← genOf_eq (x := fun c => X c ω) e2 e3 e4]
  · filter_upwards [xa', hin] with ω hω hb
    obtain ⟨gω, e1, e2, e3, e4⟩ := hω
    have : (fun c => renameCat (ren c.2) (back c.2 (X' c ω))) = fun c => X' c ω := funext hb
    rw [e1, this, ← hdt' ω gω e1, ← genOf_eq (x := fun c => X' c ω) e2 e3 e4]

end Verif
