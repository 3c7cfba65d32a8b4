/-
Runs of UMDAd on a problem with renamed bits.
-/
import Verif.Spec.Flip
import Verif.Lemmas.Sim
import Verif.Props.Binary
import Verif.Props.Hit
import Mathlib.MeasureTheory.Measure.Haar.Unique

set_option linter.unusedSectionVars false

namespace Verif

open PyCost Spec MeasureTheory

section
variable {S : ℕ → Bool} {n : ℕ}

theorem flipAt_length (r : List ℝ) : (flipAt S r).length = r.length := by simp [flipAt]

theorem flipAt_getElem? (r : List ℝ) (j : ℕ) :
    (flipAt S r)[j]? = (r[j]?).map (fun x => if S j then 1 - x else x) := by
  simp [flipAt, List.getElem?_mapIdx]

theorem flipAt_flipAt (r : List ℝ) : flipAt S (flipAt S r) = r := by
  apply List.ext_getElem?
  intro j
  rw [flipAt_getElem?, flipAt_getElem?]
  cases r[j]? with
  | none => rfl
  | some x => cases S j <;> simp

theorem flipAt_binary {r : List ℝ} (h : BinaryRow n r) : BinaryRow n (flipAt S r) := by
  refine ⟨by rw [flipAt_length, h.1], fun x hx => ?_⟩
  obtain ⟨j, hj⟩ := List.mem_iff_getElem?.1 hx
  rw [flipAt_getElem?] at hj
  obtain ⟨y, hy, rfl⟩ := Option.map_eq_some_iff.1 hj
  have := h.2 y (List.mem_of_getElem? hy)
  cases S j <;> rcases this with rfl | rfl <;> simp

/-- A binary individual and its renamed copy. -/
def FlipRel (S : ℕ → Bool) (n : ℕ) (r r' : List ℝ) : Prop := BinaryRow n r ∧ r' = flipAt S r

theorem flip_col {rows rows' : List (List ℝ)} (h : List.Forall₂ (FlipRel S n) rows rows') {j : ℕ} (hj : j < n) :
    col rows' j = (col rows j).map (fun x => if S j then 1 - x else x) := by
  induction h with
  | nil => rfl
  | @cons a b l l' hab _ ih =>
    unfold col at ih ⊢
    rw [List.map_cons, List.map_cons, List.map_cons, ih]
    congr 1
    rw [hab.2, List.getD_eq_getElem?_getD, List.getD_eq_getElem?_getD, flipAt_getElem?,
      List.getElem?_eq_getElem (by rw [hab.1.1]; exact hj)]
    rfl

theorem mean_flip {l : List ℝ} (h : l ≠ []) (c : Bool) :
    mean (l.map (fun x => if c then 1 - x else x)) = if c then 1 - mean l else mean l := by
  cases c with
  | false => simp
  | true =>
    have hs : (l.map (fun x : ℝ => 1 - x)).sum = l.length - l.sum := by
      clear h
      induction l with
      | nil => simp
      | cons a l ih => simp only [List.map_cons, List.sum_cons, ih, List.length_cons]; push_cast; ring
    have : (l.length : ℝ) ≠ 0 := by
      rw [Ne, Nat.cast_eq_zero, List.length_eq_zero_iff]; exact h
    simp only [mean, if_true, List.length_map, hs]
    field_simp

theorem clip_flip {lo hi x : ℝ} (hlt : lo < hi) (h : lo + hi = 1) : clip lo hi (1 - x) = 1 - clip lo hi x := by
  have h1 : lo = 1 - hi := by linarith
  subst h1
  unfold clip
  rcases le_total hi x with h2 | h2 <;> rcases le_total hi (1 - x) with h3 | h3 <;>
    simp only [min_def, max_def] <;> split_ifs <;> linarith

/-- The probabilities that can be learned from binary data. -/
def Learnable (lo hi : ℝ) : Set ℝ := Set.range (fun a : ℕ × ℕ => clip lo hi ((a.1 : ℝ) / (a.2 : ℝ)))

theorem sum_binary {l : List ℝ} (h : ∀ x ∈ l, x = 0 ∨ x = 1) : ∃ a : ℕ, l.sum = a := by
  induction l with
  | nil => exact ⟨0, by simp⟩
  | cons x l ih =>
    obtain ⟨a, ha⟩ := ih fun y hy => h y (by simp [hy])
    rcases h x (by simp) with rfl | rfl
    · exact ⟨a, by simp [ha]⟩
    · exact ⟨a + 1, by rw [List.sum_cons, ha]; push_cast; ring⟩

/-- Models with the same settings and bounds that add up to 1. -/
structure FlipBin0 (n : ℕ) (lo hi : ℝ) (m m' : UniBin ℝ) : Prop where
  size : m.n = n
  size' : m'.n = n
  lb : m.lb = lo
  ub : m.ub = hi
  lb' : m'.lb = lo
  ub' : m'.ub = hi

/-- Models with renamed probabilities. -/
structure FlipBin (S : ℕ → Bool) (n : ℕ) (lo hi : ℝ) (m m' : UniBin ℝ) : Prop where
  base : FlipBin0 n lo hi m m'
  len : m.p.length = n
  p : m'.p = flipAt S m.p
  learnable : ∀ x ∈ m.p, x ∈ Learnable lo hi

theorem flip_rect {rows rows' : List (List ℝ)} (h : List.Forall₂ (FlipRel S n) rows rows') :
    Rect n rows ∧ Rect n rows' ∧ ∀ r ∈ rows, BinaryRow n r := by
  induction h with
  | nil => simp [Rect]
  | cons hab _ ih =>
    refine ⟨?_, ?_, ?_⟩
    · intro r hr
      rcases List.mem_cons.1 hr with rfl | hr
      · exact hab.1.1
      · exact ih.1 r hr
    · intro r hr
      rcases List.mem_cons.1 hr with rfl | hr
      · rw [hab.2, flipAt_length]; exact hab.1.1
      · exact ih.2.1 r hr
    · intro r hr
      rcases List.mem_cons.1 hr with rfl | hr
      · exact hab.1
      · exact ih.2.2 r hr

theorem flip_learn {lo hi : ℝ} (hlt : lo < hi) (h1 : lo + hi = 1) {m m' : UniBin ℝ} (hm : FlipBin0 n lo hi m m')
    {rows rows' : List (List ℝ)} (h : List.Forall₂ (FlipRel S n) rows rows') :
    ExRel (FlipBin S n lo hi) (m.learn id rows) (m'.learn id rows') := by
  obtain ⟨hr, hr', hbin⟩ := flip_rect h
  cases h with
  | nil => exact .error _
  | @cons r r' rs rs' hab hrest =>
    have h : List.Forall₂ (FlipRel S n) (r :: rs) (r' :: rs') := .cons hab hrest
    have e1 : ∃ x, m.learn id (r :: rs) = .ok x := ⟨_, rfl⟩
    have e2 : ∃ x, m'.learn id (r' :: rs') = .ok x := ⟨_, rfl⟩
    obtain ⟨x, hx⟩ := e1
    obtain ⟨y, hy⟩ := e2
    rw [hx, hy]
    obtain ⟨a1, a2, a3, a4, a5⟩ := C20_learn_frequencies (by rw [hm.lb, hm.ub]; exact hlt) hr hx
    obtain ⟨b1, b2, b3, b4, b5⟩ := C20_learn_frequencies (by rw [hm.lb', hm.ub']; exact hlt) hr' hy
    refine .ok ⟨⟨by rw [a4, hm.size], by rw [b4, hm.size'], by rw [a2, hm.lb], by rw [a3, hm.ub],
      by rw [b2, hm.lb'], by rw [b3, hm.ub']⟩, a1, ?_, ?_⟩
    · apply List.ext_getElem?
      intro k
      rw [flipAt_getElem?]
      rcases Nat.lt_or_ge k n with hkn | hkn
      · rw [a5 k hkn, b5 k hkn, flip_col h hkn, mean_flip (by simp [col]), hm.lb, hm.ub, hm.lb', hm.ub']
        cases S k with
        | false => rfl
        | true => simp [clip_flip hlt h1]
      · rw [List.getElem?_eq_none (by omega), List.getElem?_eq_none (by omega)]; rfl
    · intro v hv
      obtain ⟨k, hk⟩ := List.mem_iff_getElem?.1 hv
      have hkn : k < n := by
        rw [← a1]; exact (List.getElem?_eq_some_iff.1 hk).1
      rw [a5 k hkn] at hk
      obtain rfl := Option.some.inj hk
      obtain ⟨a, ha⟩ := sum_binary (l := col (r :: rs) k) (by
        intro v hv
        unfold col at hv
        obtain ⟨q, hq, rfl⟩ := List.mem_map.1 hv
        obtain ⟨hl, hq⟩ := hbin q hq
        rw [List.getD_eq_getElem?_getD, List.getElem?_eq_getElem (by rw [hl]; exact hkn)]
        exact hq _ (List.getElem_mem _))
      refine ⟨(a, (r :: rs).length), ?_⟩
      simp only [hm.lb, hm.ub, id, mean, ha]
      simp [col]

theorem flip_sample {m m' : UniBin ℝ} (hn : m.n = n) (hn' : m'.n = n) (hl : m.p.length = n)
    (hp : m'.p = flipAt S m.p) (size : ℤ) {ω ω' : Draws ℝ}
    (hω : ∀ i k, ω' i k = if S k then 1 - ω i k else ω i k) (htie : ∀ i k, m.p[k]? ≠ some (ω i k)) :
    ExRel (GenRel (FlipRel S n) n n) (m.sample size ω) (m'.sample size ω') := by
  have hl' : m'.p.length = n := by rw [hp, flipAt_length, hl]
  rcases lt_or_ge size 0 with hs | hs
  · unfold UniBin.sample
    rw [if_pos hs, if_pos hs]
    exact .error _
  · rw [UniBin.sample_of_length (by rw [hl, hn]) hs, UniBin.sample_of_length (by rw [hl', hn']) hs]
    refine .ok ⟨rfl, hn, hn', ?_⟩
    rw [hn, hn']
    simp only
    generalize List.range size.toNat = l
    induction l with
    | nil => exact .nil
    | cons i l ih =>
      refine .cons ⟨⟨binRow_length _ _ _ _, ?_⟩, ?_⟩ ih
      · intro x hx
        unfold binRow at hx
        obtain ⟨k, _, rfl⟩ := List.mem_map.1 hx
        by_cases hlt : ω i (if n = 1 then 0 else k) < m.p.getD (if m.p.length = 1 then 0 else k) 0
        · exact .inr (if_pos hlt)
        · exact .inl (if_neg hlt)
      · apply List.ext_getElem?
        intro k
        rw [flipAt_getElem?]
        rcases Nat.lt_or_ge k n with hkn | hkn
        · rw [binRow_getElem? _ _ _ _ _ hkn, binRow_getElem? _ _ _ _ _ hkn]
          have e1 : (if n = 1 then 0 else k) = k := by split <;> omega
          have e2 : (if m.p.length = 1 then 0 else k) = k := by rw [hl]; exact e1
          have e3 : (if m'.p.length = 1 then 0 else k) = k := by rw [hl']; exact e1
          rw [e1, e2, e3, hω i k, hp, List.getD_eq_getElem?_getD, List.getD_eq_getElem?_getD, flipAt_getElem?]
          have hk : m.p[k]? = some (m.p[k]'(by omega)) := List.getElem?_eq_getElem (by omega)
          have ht := htie i k
          rw [hk] at ht ⊢
          have ht : m.p[k]'(by omega) ≠ ω i k := fun he => ht (by rw [he])
          cases S k with
          | false => simp
          | true =>
            simp only [if_true, Option.map_some, Option.getD_some, Option.some.injEq]
            rcases lt_or_gt_of_ne ht with hlt | hgt
            · rw [if_pos (by linarith), if_neg (by linarith)]; ring
            · rw [if_neg (by linarith), if_pos (by linarith)]; ring
        · rw [List.getElem?_eq_none (by rw [binRow_length]; exact hkn),
            List.getElem?_eq_none (by rw [binRow_length]; exact hkn)]; rfl

end

section
variable {cfg : UMDAdCfg ℝ} {S : ℕ → Bool} {ρ : Rand (Draws ℝ)} {u : ℕ × ℕ × ℕ → ℝ}
variable {e e' : Eda (List ℝ) (UniBin ℝ) (Draws ℝ)} {b b' : UniBin ℝ}

/-- No draw hits a probability. -/
structure NoTie (cfg : UMDAdCfg ℝ) (u : ℕ × ℕ × ℕ → ℝ) : Prop where
  learned : ∀ x, u x ∉ Learnable cfg.lower cfg.upper
  initial : ∀ x, u x ∉ (umdadInit cfg).p

theorem flipCfg_WF (hw : cfg.WF) : (flipCfg S cfg).WF := by
  constructor
  · intro v hv
    simp only [flipCfg] at hv
    obtain ⟨v0, h0, rfl⟩ := Option.map_eq_some_iff.1 hv
    rw [flipAt_length]
    exact hw.vector v0 h0
  · intro d hd
    simp only [flipCfg] at hd
    obtain ⟨d0, h0, rfl⟩ := Option.map_eq_some_iff.1 hd
    intro r hr
    obtain ⟨q, hq, rfl⟩ := List.mem_map.1 hr
    rw [flipAt_length]
    exact hw.data d0 h0 q hq

theorem umdadInit_flip (hw : cfg.WF) : (umdadInit (flipCfg S cfg)).p = flipAt S (umdadInit cfg).p := by
  apply List.ext_getElem?
  intro k
  rw [flipAt_getElem?]
  unfold umdadInit uniBinInit flipCfg
  cases hvec : cfg.vector with
  | none =>
    simp only [Option.map_none, List.length_replicate, ite_self, List.getElem?_replicate]
    split
    · simp; norm_num
    · rfl
  | some v =>
    have hl := hw.vector v hvec
    simp only [Option.map_some, flipAt_length]
    split
    · rw [List.getElem?_replicate]
      split
      · simp; norm_num
      · rfl
    · rw [flipAt_getElem?]

/-- A run and the run on the renamed problem with the renamed draws. -/
theorem flip_sim (h : UMDAd id cfg = .ok (e, b)) (h' : UMDAd id (flipCfg S cfg) = .ok (e', b')) (hw : cfg.WF)
    (h1 : cfg.lower + cfg.upper = 1)
    (hdata : ∀ d, cfg.base.initData = some d → ∀ r ∈ d.rows, BinaryRow cfg.base.nVars r)
    (htie : NoTie cfg u) :
    EdaSim (FlipRel S cfg.base.nVars) cfg.base.nVars cfg.base.nVars
      (FlipBin0 cfg.base.nVars cfg.lower cfg.upper) (FlipBin S cfg.base.nVars cfg.lower cfg.upper) e e'
      (drawsAt ρ u) (drawsAt ρ (flipDraws S u)) := by
  obtain ⟨hm, hlu, hb⟩ := UMDAd_ok h
  obtain ⟨hm', hlu', hb'⟩ := UMDAd_ok h'
  refine ⟨by rw [hm.sizeGen, hm'.sizeGen]; rfl, by rw [hm.maxIter, hm'.maxIter]; rfl,
    by rw [hm.deadIter, hm'.deadIter]; rfl, by rw [hm.truncLen, hm'.truncLen]; rfl,
    by rw [hm.eliteLen, hm'.eliteLen]; rfl, by rw [hm.parallel, hm'.parallel]; rfl, ?_, ?_, ?_, ?_,
    fun _ _ h => h.base⟩
  · cases hd : cfg.base.initData with
    | none =>
      rw [hm.initNone hd, hm'.initNone (by simp [flipCfg, hd])]
      obtain ⟨hp, hn⟩ := umdadInit_length hw
      refine flip_sample hn rfl hp (umdadInit_flip hw) _ ?_ ?_
      · intro i k; rfl
      · intro i k hk
        exact htie.initial (0, i, k) (List.mem_of_getElem? hk)
    | some d =>
      have hd' : (flipCfg S cfg).base.initData = some { d with rows := d.rows.map (flipAt S) } := by
        simp [flipCfg, hd]
      rw [(hm.initSome d hd).2, (hm'.initSome _ hd').2]
      refine .ok ⟨rfl, (hm.initSome d hd).1, (hm.initSome d hd).1, ?_⟩
      have := hdata d hd
      simp only
      generalize d.rows = rows at this
      induction rows with
      | nil => exact .nil
      | cons r rs ih =>
        exact .cons ⟨this r (by simp), rfl⟩ (ih fun q hq => this q (by simp [hq]))
  · rw [hm.mkNoise, hm'.mkNoise]
    simp only [mkWhiteNoise, BaseCfg.noiseAttr, if_true, flipCfg]
    refine .ok fun g g' hg => ?_
    unfold addNoise
    simp only [hg.dt]
    cases g.dt <;> first | exact .ok hg | exact .error _
  · intro t m m' g g' el el' hmm hg _
    rw [hm.updatePm, hm'.updatePm]
    exact flip_learn hlu h1 hmm hg.rows
  · intro t m m' hmm
    rw [hm.sample, hm'.sample]
    refine flip_sample hmm.base.size hmm.base.size' hmm.len hmm.p _ ?_ ?_
    · intro i k; rfl
    · intro i k hk
      exact htie.learned (t, i, k) (hmm.learnable _ (List.mem_of_getElem? hk))

end

section
variable {cfg : UMDAdCfg ℝ} {S : ℕ → Bool}

/-- All draws of a run are independent and uniform. -/
noncomputable def drawLaw : Measure (ℕ × ℕ × ℕ → ℝ) := Measure.infinitePi (fun _ => uniform01)

theorem flipDraws_flipDraws (u : ℕ × ℕ × ℕ → ℝ) : flipDraws S (flipDraws S u) = u := by
  funext x
  unfold flipDraws
  cases S x.2.2 <;> simp

theorem measurable_flipDraws : Measurable (flipDraws S) := by
  refine measurable_pi_lambda _ fun x => ?_
  unfold flipDraws
  cases S x.2.2
  · simpa using measurable_pi_apply x
  · simpa using (measurable_pi_apply x).const_sub 1

/-- Renaming the draws, as an equivalence. -/
def flipEquiv (S : ℕ → Bool) : (ℕ × ℕ × ℕ → ℝ) ≃ᵐ (ℕ × ℕ × ℕ → ℝ) where
  toFun := flipDraws S
  invFun := flipDraws S
  left_inv := flipDraws_flipDraws
  right_inv := flipDraws_flipDraws
  measurable_toFun := measurable_flipDraws
  measurable_invFun := measurable_flipDraws

instance : NullSingletonClass uniform01 := by unfold uniform01; infer_instance

theorem uniform01_flip : uniform01.map (fun x => 1 - x) = uniform01 := by
  have h : MeasurePreserving (fun x : ℝ => 1 - x) volume volume := Measure.measurePreserving_sub_left volume 1
  have h2 := h.restrict_preimage (s := Set.Ico (0 : ℝ) 1) measurableSet_Ico
  have e : (fun x : ℝ => 1 - x) ⁻¹' Set.Ico (0 : ℝ) 1 = Set.Ioc 0 1 := by
    ext x
    simp only [Set.mem_preimage, Set.mem_Ico, Set.mem_Ioc]
    constructor <;> rintro ⟨a, b⟩ <;> constructor <;> linarith
  rw [e] at h2
  have h3 := h2.map_eq
  unfold uniform01
  rw [← Measure.restrict_congr_set Ico_ae_eq_Ioc] at h3
  exact h3

theorem drawLaw_flip : drawLaw.map (flipDraws S) = drawLaw := by
  have h := Measure.infinitePi_map_pi (μ := fun _ : ℕ × ℕ × ℕ => uniform01)
    (f := fun (x : ℕ × ℕ × ℕ) (y : ℝ) => if S x.2.2 then 1 - y else y) (by
      intro x
      cases S x.2.2
      · simpa using measurable_id'
      · simpa using measurable_id'.const_sub 1)
  unfold drawLaw
  rw [show flipDraws S = fun u (x : ℕ × ℕ × ℕ) => (fun (x : ℕ × ℕ × ℕ) (y : ℝ) => if S x.2.2 then 1 - y else y) x (u x)
    from rfl, h]
  congr 1
  funext x
  cases S x.2.2
  · simp
  · simpa using uniform01_flip

theorem ae_noTie (cfg : UMDAdCfg ℝ) : ∀ᵐ u ∂drawLaw, NoTie cfg u := by
  have key : ∀ T : Set ℝ, T.Countable → ∀ x : ℕ × ℕ × ℕ, ∀ᵐ u ∂drawLaw, u x ∉ T := by
    intro T hT x
    have h := (measurePreserving_eval_infinitePi (fun _ : ℕ × ℕ × ℕ => uniform01) x)
    have h0 : uniform01 T = 0 := hT.measure_zero _
    have : ∀ᵐ y ∂uniform01, y ∉ T := by
      rw [ae_iff]; simpa using h0
    exact h.quasiMeasurePreserving.ae this
  have h1 := ae_all_iff.2 (key (Learnable cfg.lower cfg.upper) (Set.countable_range _))
  have h2 := ae_all_iff.2 (key {y | y ∈ (umdadInit cfg).p} (List.finite_toSet _).countable)
  filter_upwards [h1, h2] with u a c
  exact ⟨a, c⟩

end

end Verif
