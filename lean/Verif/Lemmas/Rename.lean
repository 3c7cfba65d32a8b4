/-
Renaming the categories of a categorical problem.
-/
import Verif.Spec.Rename
import Verif.Lemmas.Sim
import Verif.Props.Categorical

set_option linter.unusedSectionVars false

namespace Verif

open Spec

variable {α β K L C : Type} {ren : ℕ → α → β}

theorem renameCat_isStr (g : α → β) (v : Cat α) : (renameCat g v).isStr = v.isStr := by cases v <;> rfl

theorem renameCat_injective {g : α → β} (hg : Function.Injective g) : Function.Injective (renameCat g) := by
  intro v w h
  cases v <;> cases w <;> simp_all [renameCat]
  exact hg h

theorem getElem?_renameRow (r : List (Cat α)) (j : ℕ) :
    (renameRow ren r)[j]? = (r[j]?).map (renameCat (ren j)) := by simp [renameRow]

theorem length_renameRow (r : List (Cat α)) : (renameRow ren r).length = r.length := by simp [renameRow]

theorem column_rename (rows : List (List (Cat α))) (j : ℕ) :
    column (rows.map (renameRow ren)) j = (column rows j).map (renameCat (ren j)) := by
  induction rows with
  | nil => rfl
  | cons r rows ih =>
    simp only [column, List.map_cons, List.filterMap_cons, getElem?_renameRow] at ih ⊢
    cases r[j]? with
    | none => simpa using ih
    | some v => simpa using ih

theorem sameType_rename (g : α → β) (col : List (Cat α)) : SameType (col.map (renameCat g)) ↔ SameType col := by
  simp [SameType, renameCat_isStr]

/-- Related individuals: the second one is the first one with other names. -/
def RenRel (ren : ℕ → α → β) (n : ℕ) (r : List (Cat α)) (r' : List (Cat β)) : Prop :=
  r.length = n ∧ r' = renameRow ren r

theorem renRel_rows {n : ℕ} {rows : List (List (Cat α))} {rows' : List (List (Cat β))} :
    List.Forall₂ (RenRel ren n) rows rows' ↔ Rect n rows ∧ rows' = rows.map (renameRow ren) := by
  constructor
  · intro h
    induction h with
    | nil => exact ⟨fun r hr => absurd hr (by simp), rfl⟩
    | cons hab _ ih =>
      obtain ⟨h1, h2⟩ := ih
      refine ⟨?_, by rw [List.map_cons, ← hab.2, ← h2]⟩
      intro r hr
      rcases List.mem_cons.1 hr with rfl | hr
      · exact hab.1
      · exact h1 r hr
  · rintro ⟨h, rfl⟩
    induction rows with
    | nil => exact .nil
    | cons r rows ih => exact .cons ⟨h r (by simp), rfl⟩ (ih fun x hx => h x (by simp [hx]))

/-! ### Loops -/

theorem mapME_idx {A B B' : Type} {f : A → Except PyErr B} {g : A → Except PyErr B'} {h : ℕ → B → B'} {l : List A} :
    ∀ k, (∀ i a, l[i]? = some a → g a = (f a).map (h (k + i))) →
    l.mapM g = (l.mapM f).map (fun cs => cs.mapIdx (fun i => h (k + i))) := by
  induction l with
  | nil => intro k _; rfl
  | cons a l ih =>
    intro k hk
    have h0 := hk 0 a (by simp)
    have h1 := ih (k + 1) (fun i a ha => by
      have := hk (i + 1) a (by simpa using ha)
      rw [this, show k + (i + 1) = k + 1 + i by omega])
    rw [List.mapM_cons, List.mapM_cons, h0, h1]
    cases f a with
    | error err => rfl
    | ok b =>
      cases l.mapM f with
      | error err => rfl
      | ok bs =>
        show Except.ok _ = Except.ok _
        simp only [List.mapIdx_cons, Nat.add_zero]
        congr 3
        funext i
        rw [show k + (i + 1) = k + 1 + i by omega]

theorem mapME_out {A B B' : Type} {f : A → Except PyErr B} {g : A → Except PyErr B'} {h : B → B'} {l : List A}
    (hg : ∀ a ∈ l, g a = (f a).map h) : l.mapM g = (l.mapM f).map (List.map h) := by
  induction l with
  | nil => rfl
  | cons a l ih =>
    rw [List.mapM_cons, List.mapM_cons, hg a (by simp), ih fun x hx => hg x (by simp [hx])]
    cases f a with
    | error err => rfl
    | ok b =>
      cases l.mapM f with
      | error err => rfl
      | ok bs => rfl

section
variable [Field K] [LinearOrder K] [IsStrictOrderedRing K]

/-! ### Sampling from a table -/

theorem npChoice_map {A B : Type} (h : A → B) (vals : List A) (p : List K) (size : ℤ) (u : ℕ → K) :
    npChoice (vals.map h) p size u = (npChoice vals p size u).map (List.map h) := by
  unfold npChoice
  rw [List.length_map]
  split
  · rfl
  split
  · rfl
  split
  · rfl
  split
  · rfl
  split
  · rfl
  refine mapME_out fun i _ => ?_
  unfold pickVal
  rw [List.getElem?_map]
  cases vals[pickFrom p.sum 0 (u i) p]? <;> rfl

theorem listDType_rename (g : α → β) (vals : List (Cat α)) : listDType (vals.map (renameCat g)) = listDType vals := by
  simp [listDType, List.all_map, Function.comp_def, renameCat_isStr]

/-- Columns with other names. -/
def renameCols (ren : ℕ → α → β) (cols : List (DType × List (Cat α))) : List (DType × List (Cat β)) :=
  cols.mapIdx (fun j c => (c.1, c.2.map (renameCat (ren j))))

theorem frame_rename {size : ℤ} {cols : List (DType × List (Cat α))} (hc : ∀ c ∈ cols, c.2.length = size.toNat) :
    frame size (renameCols ren cols) = (frame size cols).map (renameGen ren) := by
  have hlen : (renameCols ren cols).length = cols.length := by simp [renameCols]
  unfold frame
  rw [hlen]
  split
  · rfl
  have hdt : (renameCols ren cols).any (fun c => c.1 = .object) = cols.any (fun c => c.1 = .object) := by
    have hf : (renameCols ren cols).map Prod.fst = cols.map Prod.fst := by
      refine List.ext_getElem? fun i => ?_
      simp only [renameCols, List.getElem?_map, List.getElem?_mapIdx, Option.map_map]
      rfl
    have := congrArg (fun l => List.any l (fun d => decide (d = DType.object))) hf
    simpa only [List.any_map, Function.comp_def] using this
  have hrows : rowsOf size.toNat ((renameCols ren cols).map Prod.snd) =
      (rowsOf size.toNat (cols.map Prod.snd)).map (renameRow ren) := by
    refine List.ext_getElem? fun i => ?_
    rcases Nat.lt_or_ge i size.toNat with hi | hi
    · obtain ⟨r, h1, h2, h3⟩ := rowsOf_row (cols := cols.map Prod.snd) hi (by
        intro c hc'
        obtain ⟨d, hd, rfl⟩ := List.mem_map.1 hc'
        exact hc d hd)
      obtain ⟨r', h1', h2', h3'⟩ := rowsOf_row (cols := (renameCols ren cols).map Prod.snd) hi (by
        intro c hc'
        obtain ⟨d, hd, rfl⟩ := List.mem_map.1 hc'
        obtain ⟨j, hj, rfl⟩ := List.mem_iff_getElem.1 hd
        simp only [renameCols, List.getElem_mapIdx, List.length_map]
        exact hc _ (List.getElem_mem _))
      rw [h1', List.getElem?_map, h1, Option.map_some, Option.some.injEq]
      refine List.ext_getElem? fun j => ?_
      rw [getElem?_renameRow]
      rcases Nat.lt_or_ge j cols.length with hj | hj
      · have a1 := h3 j cols[j].2 (by simp [hj])
        have a2 := h3' j (cols[j].2.map (renameCat (ren j))) (by simp [renameCols, hj])
        rw [a1, a2, List.getElem?_map]
      · rw [List.getElem?_eq_none (by rw [h2', List.length_map, hlen]; exact hj),
          List.getElem?_eq_none (by rw [h2, List.length_map]; exact hj)]
        rfl
    · rw [List.getElem?_eq_none (by rw [rowsOf_length]; exact hi),
        List.getElem?_eq_none (by rw [List.length_map, rowsOf_length]; exact hi)]
  rw [hdt, hrows]
  rfl

/-- Columns that are renamed one by one give a renamed generation. -/
theorem framed_rename {A : Type} {size : ℤ} {l : List A} {f : A → Except PyErr (DType × List (Cat α))}
    {g : A → Except PyErr (DType × List (Cat β))}
    (hg : ∀ i a, l[i]? = some a → g a = (f a).map (fun c => (c.1, c.2.map (renameCat (ren i)))))
    (hf : ∀ a c, f a = .ok c → c.2.length = size.toNat) :
    (match l.mapM g with
      | .error err => .error err
      | .ok cols => frame size cols) =
    (match l.mapM f with
      | .error err => .error err
      | .ok cols => frame size cols : Except PyErr (Gen (List (Cat α)))).map (renameGen ren) := by
  rw [mapME_idx (h := fun i (c : DType × List (Cat α)) => (c.1, c.2.map (renameCat (ren i)))) 0 (fun i a ha => by
    rw [Nat.zero_add]; exact hg i a ha)]
  cases hl : l.mapM f with
  | error err => rfl
  | ok cols =>
    have := frame_rename (ren := ren) (size := size) (cols := cols) (fun c hc => by
      obtain ⟨a, _, ha⟩ := mapME_mem hl hc
      exact hf a c ha)
    show frame size _ = _
    rw [← this]
    congr 1
    show List.mapIdx _ cols = List.mapIdx _ cols
    congr 1
    funext i
    rw [Nat.zero_add]

theorem space_sample_rename [LinearOrder α] (s : CatSpace α K) (n : ℕ) (size : ℤ) (ω : Draws K) :
    (⟨s.objArr, s.vals.mapIdx (fun j vs => vs.map (renameCat (ren j))), s.freq⟩ : CatSpace β K).sample n size ω = (s.sample n size ω).map (renameGen ren) := by
  unfold CatSpace.sample
  refine framed_rename ?_ ?_
  · intro i a ha
    obtain ⟨hi, rfl⟩ := List.getElem?_eq_some_iff.1 ha
    rw [List.getElem_range]
    unfold CatSpace.sampleCol
    simp only [List.getElem?_mapIdx]
    rcases hv : s.vals[i]? with _ | v
    · rfl
    rcases hp : s.freq[i]? with _ | p
    · rfl
    simp only [Option.map_some, listDType_rename]
    rcases (if s.objArr = true then Except.ok DType.object else listDType v) with err | dt
    · rfl
    simp only [npChoice_map]
    rcases npChoice v p size (fun k => ω k i) with err | col <;> rfl
  · intro a c hc
    obtain ⟨v, p, _, _, _, _, h⟩ := CatSpace.sampleCol_ok (d := c.1) (col := c.2) hc
    exact (npChoice_ok h).2.2.2.2.1

/-- The table of a variable with other names. -/
def renameTable (g : α → β) (t : List (Cat α × K)) : List (Cat β × K) := t.map (fun vq => (renameCat g vq.1, vq.2))

theorem uniCat_sample_rename [LinearOrder α] {n : ℕ} {m : UniCat ℕ α K} {m' : UniCat ℕ β K} (hv : m.vars = List.range n)
    (hv' : m'.vars = List.range n) (ht : ∀ j < n, m'.table j = (m.table j).map (renameTable (ren j))) (size : ℤ)
    (ω : Draws K) : m'.sample size ω = (m.sample size ω).map (renameGen ren) := by
  unfold UniCat.sample
  rw [hv, hv', if_neg (not_not.2 List.nodup_range), if_neg (not_not.2 List.nodup_range)]
  refine framed_rename ?_ ?_
  · intro i a ha
    obtain ⟨hi, rfl⟩ := List.getElem?_eq_some_iff.1 ha
    simp only [List.length_zipIdx, List.length_range] at hi
    simp only [List.getElem_zipIdx, List.getElem_range, Nat.zero_add]
    unfold UniCat.sampleCol
    rw [ht i hi]
    rcases m.table i with _ | t
    · rfl
    have h1 : (renameTable (ren i) t).map Prod.fst = (t.map Prod.fst).map (renameCat (ren i)) := by
      simp [renameTable]
    have h2 : (renameTable (ren i) t).map Prod.snd = t.map Prod.snd := by simp [renameTable]
    simp only [Option.map_some, h1, h2, listDType_rename]
    rcases listDType (t.map Prod.fst) with err | dt
    · rfl
    simp only
    rw [npChoice_map (renameCat (ren i))]
    rcases npChoice (t.map Prod.fst) (t.map Prod.snd) size (fun k => ω k i) with err | col <;> rfl
  · intro a c hc
    obtain ⟨t, _, _, h⟩ := UniCat.sampleCol_ok (d := c.1) (col := c.2) hc
    exact (npChoice_ok h).2.2.2.2.1

/-! ### Learning -/

section
variable [LinearOrder α] [LinearOrder β]

theorem obtain_rename_error (g : α → β) (col : List (Cat α)) :
    ExRel (fun _ _ => True) (obtainProbabilities (K := K) col) (obtainProbabilities (K := K) (col.map (renameCat g))) := by
  by_cases h : SameType col
  · rw [obtain_isOk h, obtain_isOk ((sameType_rename g col).2 h)]
    exact .ok trivial
  · rw [obtain_mixed h, obtain_mixed (fun h' => h ((sameType_rename g col).1 h'))]
    exact .error _

theorem learnCats_rename [DecidableEq L] {data : Gen (List (Cat α))} {data' : Gen (List (Cat β))}
    (hc : data'.cols = data.cols) (hr : data'.rows = data.rows.map (renameRow ren)) (ls : List L) :
    ∀ i (tbl : L → Option (List (Cat α × K))) (tbl' : L → Option (List (Cat β × K))),
    ExRel (fun _ _ => True) (learnCats data i ls tbl) (learnCats data' i ls tbl') := by
  induction ls with
  | nil => intro i tbl tbl'; exact .ok trivial
  | cons l ls ih =>
    intro i tbl tbl'
    unfold learnCats
    rw [hc]
    split
    · exact .error _
    have h1 := obtain_rename_error (K := K) (ren i) (column data.rows i)
    rw [← column_rename, ← hr] at h1
    simp only [column] at h1
    rcases hx : obtainProbabilities (K := K) (data.rows.filterMap (fun r => r[i]?)) with err | t <;>
      rcases hx' : obtainProbabilities (K := K) (data'.rows.filterMap (fun r => r[i]?)) with err' | t'
    · rw [hx, hx'] at h1; cases h1; exact .error _
    · rw [hx, hx'] at h1; cases h1
    · rw [hx, hx'] at h1; cases h1
    · exact ih _ _ _

/-- The models learned from the same data with other names. -/
def RenModel (ren : ℕ → α → β) (n : ℕ) (m : UniCat ℕ α K) (m' : UniCat ℕ β K) : Prop :=
  ∃ (c : UniCat ℕ α K) (c' : UniCat ℕ β K) (g : Gen (List (Cat α))) (g' : Gen (List (Cat β))),
    c.vars = List.range n ∧ c'.vars = List.range n ∧ GenRel (RenRel ren n) n n g g' ∧
    c.learn g = .ok m ∧ c'.learn g' = .ok m'

theorem learn_rename {n : ℕ} {c : UniCat ℕ α K} {c' : UniCat ℕ β K} {g : Gen (List (Cat α))}
    {g' : Gen (List (Cat β))} (hc : c.vars = List.range n) (hc' : c'.vars = List.range n)
    (hg : GenRel (RenRel ren n) n n g g') : ExRel (RenModel ren n) (c.learn g) (c'.learn g') := by
  have h := learnCats_rename (K := K) (ren := ren) (data := g) (data' := g') (by rw [hg.cols, hg.cols'])
    (renRel_rows.1 hg.rows).2 (List.range n) 0 c.table c'.table
  rcases hx : learnCats g 0 (List.range n) c.table with err | t <;>
    rcases hx' : learnCats g' 0 (List.range n) c'.table with err' | t'
  · rw [hx, hx'] at h
    cases h
    unfold UniCat.learn
    rw [hc, hc', hx, hx']
    exact .error _
  · rw [hx, hx'] at h; cases h
  · rw [hx, hx'] at h; cases h
  · have e1 : c.learn g = .ok { c with table := t } := by unfold UniCat.learn; rw [hc, hx]
    have e2 : c'.learn g' = .ok { c' with table := t' } := by unfold UniCat.learn; rw [hc', hx']
    rw [e1, e2]
    exact .ok ⟨c, c', g, g', hc, hc', hg, e1, e2⟩

/-- What related models have in common. -/
theorem renModel_tables {n : ℕ} {m : UniCat ℕ α K} {m' : UniCat ℕ β K} (h : RenModel ren n m m') :
    m.vars = List.range n ∧ m'.vars = List.range n ∧ ∃ rows : List (List (Cat α)), Rect n rows ∧
    ∀ j < n, ∃ t t', m.table j = some t ∧ m'.table j = some t' ∧ obtainProbabilities (column rows j) = .ok t ∧
      obtainProbabilities ((column rows j).map (renameCat (ren j))) = .ok t' := by
  obtain ⟨c, c', g, g', hc, hc', hg, h1, h2⟩ := h
  obtain ⟨a1, _, a3, _⟩ := UniCat.learn_ok (by rw [hc]; exact List.nodup_range) h1
  obtain ⟨b1, _, b3, _⟩ := UniCat.learn_ok (by rw [hc']; exact List.nodup_range) h2
  obtain ⟨hr, hr'⟩ := renRel_rows.1 hg.rows
  refine ⟨a1.trans hc, b1.trans hc', g.rows, hr, fun j hj => ?_⟩
  obtain ⟨t, ht, ho⟩ := a3 j j (by rw [hc]; simp [hj])
  obtain ⟨t', ht', ho'⟩ := b3 j j (by rw [hc']; simp [hj])
  rw [hr', column_rename] at ho'
  exact ⟨t, t', ht, ht', ho, ho'⟩

/-! ### Names in the same order -/

theorem renameCat_le {g : α → β} (hg : StrictMono g) (v w : Cat α) : (renameCat g v).le (renameCat g w) = v.le w := by
  cases v <;> cases w <;> simp [renameCat, Cat.le, hg.le_iff_le]

theorem insertCat_rename {g : α → β} (hg : StrictMono g) (v : Cat α) (l : List (Cat α)) :
    insertCat (renameCat g v) (l.map (renameCat g)) = (insertCat v l).map (renameCat g) := by
  induction l with
  | nil => rfl
  | cons w l ih =>
    simp only [List.map_cons, insertCat, renameCat_le hg]
    split
    · rfl
    · rw [List.map_cons, ih]

theorem npUnique_rename {g : α → β} (hg : StrictMono g) (col : List (Cat α)) :
    npUnique (col.map (renameCat g)) = (npUnique col).map (renameCat g) := by
  unfold npUnique
  rw [List.dedup_map_of_injective (renameCat_injective hg.injective)]
  induction col.dedup with
  | nil => rfl
  | cons v l ih => rw [List.map_cons, List.foldr_cons, List.foldr_cons, ih, insertCat_rename hg]

theorem obtain_rename {g : α → β} (hg : StrictMono g) {col : List (Cat α)} {t : List (Cat α × K)}
    {t' : List (Cat β × K)} (h : obtainProbabilities col = .ok t)
    (h' : obtainProbabilities (col.map (renameCat g)) = .ok t') : t' = renameTable g t := by
  have hs : SameType col := by
    by_contra hs
    rw [obtain_mixed hs] at h
    cases h
  rw [obtain_isOk hs] at h
  rw [obtain_isOk ((sameType_rename g col).2 hs)] at h'
  obtain rfl := Except.ok.inj h
  obtain rfl := Except.ok.inj h'
  rw [npUnique_rename hg]
  simp only [renameTable, List.map_map, List.length_map]
  refine List.map_congr_left fun v _ => ?_
  simp only [Function.comp_apply, List.count_map_of_injective _ _ (renameCat_injective hg.injective)]

theorem renModel_sample_mono (hren : ∀ j, StrictMono (ren j)) {n : ℕ} {m : UniCat ℕ α K} {m' : UniCat ℕ β K}
    (h : RenModel ren n m m') (size : ℤ) (ω : Draws K) :
    m'.sample size ω = (m.sample size ω).map (renameGen ren) := by
  obtain ⟨h1, h2, rows, _, h3⟩ := renModel_tables h
  refine uniCat_sample_rename h1 h2 (fun j hj => ?_) size ω
  obtain ⟨t, t', e1, e2, e3, e4⟩ := h3 j hj
  rw [e1, e2, obtain_rename (hren j) e3 e4]
  rfl

end

/-! ### The algorithms -/

variable [LinearOrder α] [LinearOrder β] [FloorRing K] {fl : K → K} {cfg : CatCfg α K}

theorem renameCfg_check (n : ℕ) : (renameCfg ren cfg).space.check n = cfg.space.check n := by
  have h : ∀ i, (renameCfg ren cfg).space.checkVar i = cfg.space.checkVar i := by
    intro i
    unfold CatSpace.checkVar renameCfg
    simp only [List.getElem?_mapIdx]
    rcases cfg.space.vals[i]? with _ | v
    · rfl
    · rcases cfg.space.freq[i]? with _ | p <;> simp
  unfold CatSpace.check
  rw [show (renameCfg ren cfg).space.checkVar = cfg.space.checkVar from funext h]

theorem UMDAcat_rename_isOk {e : Eda (List (Cat α)) (UniCat ℕ α K) (Draws K)} {b : UniCat ℕ α K}
    (h : UMDAcat fl cfg = .ok (e, b)) : ∃ e' b', UMDAcat fl (renameCfg ren cfg) = .ok (e', b') := by
  obtain ⟨he, _⟩ := UMDAcat_ok h
  obtain ⟨hm, hc⟩ := catEda_ok he
  obtain ⟨e', he'⟩ := (mkEdaG_isOk (fl := fl) (cfg := { (renameCfg ren cfg).base with wNoise := some (-1) })
    (noise := fun _ => .ok addEmptyStr)
    (init := fun ω => (renameCfg ren cfg).space.sample (renameCfg ren cfg).base.nVars (renameCfg ren cfg).base.sizeGen ω)
    (learn := fun (c : UniCat ℕ β K) g _ (_ : Draws K) => UniCat.learn c g)
    (sample := fun c ω => UniCat.sample c (renameCfg ren cfg).base.sizeGen ω)).2 ⟨hm.dead, by
      intro d hd
      simp only [renameCfg, Option.map_eq_some_iff] at hd
      obtain ⟨d0, hd0, rfl⟩ := hd
      exact (hm.initSome d0 hd0).1⟩
  have hc' : (renameCfg ren cfg).space.check (renameCfg ren cfg).base.nVars = .ok () := by
    rw [renameCfg_check]; exact hc
  refine ⟨e', UniCat.new (List.range (renameCfg ren cfg).base.nVars), ?_⟩
  unfold UMDAcat catEda
  rw [he', hc']

theorem addEmptyStr_rename {n : ℕ} {g : Gen (List (Cat α))} {g' : Gen (List (Cat β))}
    (h : GenRel (RenRel ren n) n n g g') : ExRel (GenRel (RenRel ren n) n n) (addEmptyStr g) (addEmptyStr g') := by
  have hs : (g'.rows.all (fun r => r.all Cat.isStr)) = g.rows.all (fun r => r.all Cat.isStr) := by
    rw [(renRel_rows.1 h.rows).2, List.all_map]
    refine List.all_congr rfl fun r => ?_
    rw [Function.comp_apply, Bool.eq_iff_iff]
    simp only [List.all_eq_true]
    constructor
    · intro h v hv
      obtain ⟨j, hj⟩ := List.mem_iff_getElem?.1 hv
      have := h (renameCat (ren j) v) (List.mem_iff_getElem?.2 ⟨j, by rw [getElem?_renameRow, hj]; rfl⟩)
      rwa [renameCat_isStr] at this
    · intro h v hv
      obtain ⟨j, hj⟩ := List.mem_iff_getElem?.1 hv
      rw [getElem?_renameRow, Option.map_eq_some_iff] at hj
      obtain ⟨w, hw, rfl⟩ := hj
      rw [renameCat_isStr]
      exact h w (List.mem_iff_getElem?.2 ⟨j, hw⟩)
  unfold addEmptyStr
  rw [h.dt, hs]
  split
  · split
    · exact .ok h
    · exact .error _
  · exact .error _

theorem genRel_rename {n : ℕ} {g : Gen (List (Cat α))} (hc : g.cols = n) (hr : Rect n g.rows) :
    GenRel (RenRel ren n) n n g (renameGen ren g) :=
  ⟨rfl, hc, hc, renRel_rows.2 ⟨hr, rfl⟩⟩

/-- The two algorithms, apart from sampling. -/
theorem umdacat_rename_sim {e : Eda (List (Cat α)) (UniCat ℕ α K) (Draws K)} {b : UniCat ℕ α K}
    {e' : Eda (List (Cat β)) (UniCat ℕ β K) (Draws K)} {b' : UniCat ℕ β K} (h : UMDAcat fl cfg = .ok (e, b))
    (h' : UMDAcat fl (renameCfg ren cfg) = .ok (e', b')) (hw : cfg.WF) (ρ ρ' : Rand (Draws K))
    (hi : ρ'.init = ρ.init) (S : UniCat ℕ α K → Draws K → Except PyErr (Gen (List (Cat α))))
    (S' : UniCat ℕ β K → Draws K → Except PyErr (Gen (List (Cat β))))
    (hS : ∀ t m m', RenModel ren cfg.base.nVars m m' →
      ExRel (GenRel (RenRel ren cfg.base.nVars) cfg.base.nVars cfg.base.nVars) (S m (ρ.sample t)) (S' m' (ρ'.sample t))) :
    EdaSim (RenRel ren cfg.base.nVars) cfg.base.nVars cfg.base.nVars
      (fun m m' => m.vars = List.range cfg.base.nVars ∧ m'.vars = List.range cfg.base.nVars)
      (RenModel ren cfg.base.nVars) { e with sample := S } { e' with sample := S' } ρ ρ' := by
  obtain ⟨he, _⟩ := UMDAcat_ok h
  obtain ⟨hm, _⟩ := catEda_ok he
  obtain ⟨he', _⟩ := UMDAcat_ok h'
  obtain ⟨hm', _⟩ := catEda_ok he'
  refine ⟨?_, ?_, ?_, ?_, ?_, ?_, ?_, ?_, ?_, hS, ?_⟩
  · show e'.sizeGen = e.sizeGen
    rw [hm.sizeGen, hm'.sizeGen]; rfl
  · show e'.maxIter = e.maxIter
    rw [hm.maxIter, hm'.maxIter]; rfl
  · show e'.deadIter = e.deadIter
    rw [hm.deadIter, hm'.deadIter]; rfl
  · show e'.truncLen = e.truncLen
    rw [hm.truncLen, hm'.truncLen]; rfl
  · show e'.eliteLen = e.eliteLen
    rw [hm.eliteLen, hm'.eliteLen]; rfl
  · show e'.parallel = e.parallel
    rw [hm.parallel, hm'.parallel]; rfl
  · show ExRel _ (e.initGen ρ.init) (e'.initGen ρ'.init)
    rw [hi]
    cases hd : cfg.base.initData with
    | none =>
      rw [hm.initNone hd, hm'.initNone (by simp [renameCfg, hd])]
      have := space_sample_rename (ren := ren) cfg.space cfg.base.nVars cfg.base.sizeGen ρ.init
      simp only [renameCfg]
      rw [this]
      cases hg : cfg.space.sample cfg.base.nVars cfg.base.sizeGen ρ.init with
      | error err => exact .error _
      | ok g =>
        obtain ⟨_, h2, _, h4, _⟩ := CatSpace.sample_ok hg
        exact .ok (genRel_rename h2 h4)
    | some d =>
      obtain ⟨c1, c2⟩ := hm.initSome d hd
      obtain ⟨_, c3⟩ := hm'.initSome (renameGen ren d) (by simp [renameCfg, hd])
      rw [c2, c3]
      refine .ok (genRel_rename c1 ?_)
      have := hw d hd
      rw [c1] at this
      exact this
  · show ExRel _ (e.mkNoise ρ.noise) (e'.mkNoise ρ'.noise)
    rw [hm.mkNoise, hm'.mkNoise]
    exact .ok fun g g' hg => addEmptyStr_rename hg
  · intro t m m' g g' el el' hmm hg hel
    show ExRel _ (e.updatePm m g el (ρ.learn t)) (e'.updatePm m' g' el' (ρ'.learn t))
    rw [hm.updatePm, hm'.updatePm]
    exact learn_rename hmm.1 hmm.2 hg
  · intro m m' hmm
    obtain ⟨h1, h2, _⟩ := renModel_tables hmm
    exact ⟨h1, h2⟩

/-- Related outcomes have reports that differ in the names only. -/
theorem report_rename {σ σ' : Type} {n : ℕ} {rm0 : σ → σ' → Prop}
    {a : Except PyErr (EdaResult (List (Cat α)) C × St (List (Cat α)) C σ)}
    {a' : Except PyErr (EdaResult (List (Cat β)) C × St (List (Cat β)) C σ')}
    (h : ExRel (fun x y => ResRel (RenRel ren n) x.1 y.1 ∧ StRel (RenRel ren n) n n rm0 x.2 y.2) a a') :
    runReport a' = (runReport a).map (renameReport ren) := by
  cases h with
  | error err => rfl
  | @ok x y hxy =>
    obtain ⟨hr, hs⟩ := hxy
    show Except.ok (y.1, y.2.log) = Except.ok (renameReport ren (x.1, x.2.log))
    congr 1
    have hb : y.1.bestInd = renameBest ren x.1.bestInd := by
      have := hr.bestInd
      generalize x.1.bestInd = bx at this ⊢
      generalize y.1.bestInd = bi at this ⊢
      cases this with
      | index => rfl
      | row h => rw [h.2]; rfl
    have hl : y.2.log = x.2.log.map (List.map (fun rc => (renameRow ren rc.1, rc.2))) := by
      have := hs.log
      generalize x.2.log = lx at this ⊢
      generalize y.2.log = ly at this ⊢
      induction this with
      | nil => rfl
      | @cons a b la lb hab _ ih =>
        rw [List.map_cons, ← ih]
        congr 1
        induction hab with
        | nil => rfl
        | cons h1 _ ih2 =>
          rw [List.map_cons, ← ih2]
          congr 1
          exact Prod.ext h1.1.2 h1.2.symm
    have h1 := hr.bestCost
    have h2 := hr.nFev
    have h3 := hr.history
    simp only [renameReport]
    rw [← hb, ← hl, ← h1, ← h2, ← h3]

end

end Verif
