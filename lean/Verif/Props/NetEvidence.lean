/- C37 (sampling with evidence), the counterexamples to C35, C37 and C57, and concrete instances of
the theorems on networks. -/
import Verif.Props.Net

set_option linter.unusedSectionVars false

namespace Verif

open Spec

section evidence

variable {L K : Type} [DecidableEq L] [Field K] [LinearOrder K] [IsStrictOrderedRing K]
  {net : GNet L K} {setDiff : List L → List L → List L} {pinv fac : List (List K) → List (List K)}

theorem mapMO_map {A B : Type} {f : A → Option B} {g : A → B} {l : List A}
    (h : ∀ a ∈ l, f a = some (g a)) : l.mapM f = some (l.map g) := by
  induction l with
  | nil => rfl
  | cons a l ih =>
    rw [List.mapM_cons, h a (by simp), ih (fun b hb => h b (by simp [hb]))]
    rfl

theorem setDiff_perm (hsd : IsSetDiff setDiff) {a a' b : List L} (h : ∀ l, l ∈ a ↔ l ∈ a') :
    (setDiff a b).Perm (setDiff a' b) := by
  rw [List.perm_ext_iff_of_nodup (hsd a b).1 (hsd a' b).1]
  intro l
  rw [(hsd a b).2, (hsd a' b).2, h]

/-- C37: what every column of a sample with evidence contains.  Columns are in the order of
`variables`, evidence columns are constant; the column of another variable carries the coordinate
of the posterior draw at the position which the *constructor's* set difference gives it. -/
theorem C37_columns (hw : NetWf net) (hsd : IsSetDiff setDiff) {vars : List L}
    (hv : ∀ l, l ∈ vars ↔ l ∈ net.top) {evid : List (L × K)} (hk : (evid.map Prod.fst).Nodup)
    (hkv : ∀ l ∈ evid.map Prod.fst, l ∈ vars) (hfree : ∃ l ∈ vars, l ∉ evid.map Prod.fst)
    (hp : ∀ a : List (List K), a.length = evid.length → (∀ r ∈ a, r.length = evid.length) →
      PinvAt pinv evid.length a) {size : ℤ} (hsz : 0 ≤ size) (ω : Draws K) :
    ∃ mean cov rows g,
      net.inference setDiff pinv (some net.top) (evid.map Prod.snd) (evid.map Prod.fst) =
        .ok (mean, cov) ∧
      mvNormal fac mean cov size ω = .ok rows ∧
      net.sampleEvidence setDiff pinv fac vars evid (some net.top) size ω = .ok g ∧
      g.cols = vars.length ∧ g.rows.length = size.toNat ∧
      ∀ (i : ℕ) (row draw : List K), g.rows[i]? = some row → rows[i]? = some draw →
        row.length = vars.length ∧
        ∀ (c : ℕ) (l : L), vars[c]? = some l →
          (∀ v, (l, v) ∈ evid → row[c]? = some v) ∧
          ∀ k : ℕ, (setDiff vars (evid.map Prod.fst))[k]? = some l → row[c]? = draw[k]? := by
  obtain ⟨keys, hkeys⟩ : ∃ keys, keys = evid.map Prod.fst := ⟨_, rfl⟩
  obtain ⟨vals, hvals⟩ : ∃ vals, vals = evid.map Prod.snd := ⟨_, rfl⟩
  have hkl : keys.length = evid.length := by rw [hkeys]; simp
  have hvl : vals.length = keys.length := by rw [hkl, hvals]; simp
  rw [← hkeys] at hk hkv hfree ⊢
  rw [← hvals]
  obtain ⟨m, S, P, cov, -, -, -, -, -, hinf⟩ := C36_formula (pinv := pinv) hw hsd (names := keys)
    (fun l hl => (hv l).1 (hkv l hl)) (by rw [hkl]; exact hp)
  have hinf := hinf vals hvl
  obtain ⟨mean, hmean⟩ : ∃ mean : List K, mean = List.ofFn (fun i =>
    m (setDiff net.top keys)[i] + (gram S (setDiff net.top keys) keys * P).mulVec
      (fun b => vals.getD b 0 - m keys[b]) i) := ⟨_, rfl⟩
  obtain ⟨cv, hcv⟩ : ∃ cv : List (List K), cv = List.ofFn (fun i => List.ofFn (fun j => cov i j)) :=
    ⟨_, rfl⟩
  rw [← hmean, ← hcv] at hinf
  have hperm : (setDiff vars keys).Perm (setDiff net.top keys) := setDiff_perm hsd hv
  have hml : mean.length = (setDiff vars keys).length := by
    rw [hmean, List.length_ofFn, hperm.length_eq]
  have hcl : cv.length = mean.length := by rw [hcv, hmean, List.length_ofFn, List.length_ofFn]
  have hcr : ∀ r ∈ cv, r.length = cv.length := by
    intro r hr
    rw [hcv] at hr ⊢
    obtain ⟨i, rfl⟩ := List.mem_ofFn.1 hr
    rw [List.length_ofFn, List.length_ofFn]
  have hpos : 0 < mean.length := by
    obtain ⟨l, hl, hlk⟩ := hfree
    rw [hml]
    exact List.length_pos_of_mem (((hsd vars keys).2 l).2 ⟨hl, hlk⟩)
  have hmv : mvNormal fac mean cv size ω = .ok ((List.range size.toNat).map (fun i =>
      (List.range mean.length).map (fun j => mean.getD j 0 +
        ((List.range mean.length).map (fun k => ω i k * entry (fac cv) k j)).sum))) := by
    unfold mvNormal
    rw [if_neg (by omega), if_neg (by omega), if_neg (by
      rw [not_not, List.all_eq_true]
      intro r hr
      exact decide_eq_true (hcr r hr)), if_neg (by rw [not_not]; exact hcl.symm)]
  obtain ⟨rows, hrows⟩ : ∃ rows, rows = (List.range size.toNat).map (fun i =>
      (List.range mean.length).map (fun j => mean.getD j 0 +
        ((List.range mean.length).map (fun k => ω i k * entry (fac cv) k j)).sum)) := ⟨_, rfl⟩
  rw [← hrows] at hmv
  have hrl : rows.length = size.toNat := by rw [hrows]; simp
  have hdl : ∀ d ∈ rows, d.length = (setDiff vars keys).length := by
    intro d hd
    rw [hrows] at hd
    obtain ⟨i, _, rfl⟩ := List.mem_map.1 hd
    simp [hml]
  have hmem : ∀ l ∈ vars, l ∈ setDiff vars keys ++ keys := by
    intro l hl
    by_cases hlk : l ∈ keys
    · exact List.mem_append_right _ hlk
    · exact List.mem_append_left _ (((hsd vars keys).2 l).2 ⟨hl, hlk⟩)
  refine ⟨mean, cv, rows, { dt := .float, cols := vars.length, rows := rows.map (fun d =>
    vars.map (fun l => (d ++ vals).getD ((setDiff vars keys ++ keys).idxOf l) 0)) },
    hinf, hmv, ?_, rfl, by simp [hrl], ?_⟩
  · unfold GNet.sampleEvidence
    simp only [← hkeys, ← hvals]
    rw [hinf]
    simp only
    rw [hmv]
    simp only
    rw [if_neg (by rw [not_not]; exact hml)]
    unfold Frame.select
    rw [mapMO_map (g := fun l => (setDiff vars keys ++ keys).idxOf l)
      (fun l hl => idxOf?_mem (hmem l hl))]
    simp only [List.map_map, Function.comp_def]
  · intro i row draw hrow hdraw
    simp only [List.getElem?_map, hdraw, Option.map_some, Option.some.injEq] at hrow
    subst hrow
    have hd := hdl draw (List.mem_of_getElem? hdraw)
    refine ⟨by simp, ?_⟩
    intro c l hc
    rw [List.getElem?_map, hc, Option.map_some]
    constructor
    · intro v hlv
      have hlk : l ∈ keys := by rw [hkeys]; exact List.mem_map.2 ⟨_, hlv, rfl⟩
      have hnot : l ∉ setDiff vars keys := fun h => (((hsd vars keys).2 l).1 h).2 hlk
      rw [List.idxOf_append_of_notMem hnot, List.getD_eq_getElem?_getD,
        List.getElem?_append_right (by omega), hd, Nat.add_sub_cancel_left]
      obtain ⟨b, hb⟩ := List.mem_iff_getElem?.1 hlv
      have hkb : keys[b]? = some l := by rw [hkeys, List.getElem?_map, hb]; rfl
      have hvb : vals[b]? = some v := by rw [hvals, List.getElem?_map, hb]; rfl
      have hidx : keys.idxOf l = b := by
        obtain ⟨h1, rfl⟩ := List.getElem?_eq_some_iff.1 hkb
        exact hk.idxOf_getElem b h1
      rw [hidx, hvb]
      rfl
    · intro k hk'
      obtain ⟨h1, h2⟩ := List.getElem?_eq_some_iff.1 hk'
      have hin : l ∈ setDiff vars keys := List.mem_of_getElem? hk'
      have hidx : (setDiff vars keys).idxOf l = k := by
        rw [← h2]; exact (hsd vars keys).1.idxOf_getElem k h1
      rw [List.idxOf_append_of_mem hin, hidx, List.getD_eq_getElem?_getD,
        List.getElem?_append_left (by omega), List.getElem?_eq_getElem (by omega)]
      rfl

/-- C37 when the constructor's and `inference`'s set differences are iterated in the same order:
every free column carries the posterior draw of its own variable.  Missing: other orders, see
`C37_refuted`. -/
theorem C37_partial (hw : NetWf net) (hsd : IsSetDiff setDiff) {vars : List L}
    (hv : ∀ l, l ∈ vars ↔ l ∈ net.top) {evid : List (L × K)} (hk : (evid.map Prod.fst).Nodup)
    (hkv : ∀ l ∈ evid.map Prod.fst, l ∈ vars) (hfree : ∃ l ∈ vars, l ∉ evid.map Prod.fst)
    (hp : ∀ a : List (List K), a.length = evid.length → (∀ r ∈ a, r.length = evid.length) →
      PinvAt pinv evid.length a) {size : ℤ} (hsz : 0 ≤ size) (ω : Draws K)
    (horder : setDiff vars (evid.map Prod.fst) = setDiff net.top (evid.map Prod.fst)) :
    ∃ mean cov rows g,
      net.inference setDiff pinv (some net.top) (evid.map Prod.snd) (evid.map Prod.fst) =
        .ok (mean, cov) ∧
      mvNormal fac mean cov size ω = .ok rows ∧
      net.sampleEvidence setDiff pinv fac vars evid (some net.top) size ω = .ok g ∧
      g.cols = vars.length ∧ g.rows.length = size.toNat ∧
      ∀ (i : ℕ) (row draw : List K), g.rows[i]? = some row → rows[i]? = some draw →
        row.length = vars.length ∧
        ∀ (c : ℕ) (l : L), vars[c]? = some l →
          (∀ v, (l, v) ∈ evid → row[c]? = some v) ∧
          ∀ k : ℕ, (setDiff net.top (evid.map Prod.fst))[k]? = some l → row[c]? = draw[k]? := by
  have := C37_columns (fac := fac) hw hsd hv hk hkv hfree hp hsz ω
  rwa [horder] at this

/-- C37: evidence on all the variables leaves nothing to sample, which numpy rejects. -/
theorem C37_all_evidence (hw : NetWf net) (hsd : IsSetDiff setDiff) {vars : List L}
    {evid : List (L × K)} (hkv : ∀ l, l ∈ evid.map Prod.fst ↔ l ∈ net.top)
    (hp : ∀ a : List (List K), a.length = evid.length → (∀ r ∈ a, r.length = evid.length) →
      PinvAt pinv evid.length a) (size : ℤ) (ω : Draws K) :
    net.sampleEvidence setDiff pinv fac vars evid (some net.top) size ω = .error .valueError := by
  have hkl : (evid.map Prod.fst).length = evid.length := by simp
  obtain ⟨m, S, P, cov, -, -, -, -, -, hinf⟩ := C36_formula (pinv := pinv) hw hsd
    (names := evid.map Prod.fst) (fun l hl => (hkv l).1 hl) (by rw [hkl]; exact hp)
  have hinf := hinf (evid.map Prod.snd) (by simp)
  have h0 : (setDiff net.top (evid.map Prod.fst)).length = 0 := by
    rw [List.length_eq_zero_iff, List.eq_nil_iff_forall_not_mem]
    intro l hl
    have := ((hsd _ _).2 l).1 hl
    exact this.2 ((hkv l).2 this.1)
  unfold GNet.sampleEvidence
  rw [hinf]
  simp only
  unfold mvNormal
  by_cases hs : size < 0
  · rw [if_pos hs]
  · rw [if_neg hs, if_pos (by rw [List.length_ofFn]; exact h0)]

end evidence

/-! ## Counterexamples -/

namespace Ex

/-- `A → B`, `A → C`, `B → C` with all coefficients and variances 1. -/
def fan {K : Type} [Field K] : GNet ℕ K :=
  { top := [0, 1, 2]
    cpd := fun l => if l = 0 then ⟨[], [0], 1⟩ else if l = 1 then ⟨[0], [0, 1], 1⟩
      else ⟨[0, 1], [0, 1, 1], 1⟩ }

theorem fan_wf {K : Type} [Field K] [LinearOrder K] [IsStrictOrderedRing K] :
    NetWf (fan : GNet ℕ K) where
  nodup := by simp [fan]
  beta := by
    intro l hl
    simp only [fan, List.mem_cons, List.not_mem_nil, or_false] at hl
    rcases hl with rfl | rfl | rfl <;> simp [fan]
  order := by
    intro i l hl p hp
    match i, hl with
    | 0, hl => simp [fan] at hl; subst hl; simp [fan] at hp
    | 1, hl => simp [fan] at hl; subst hl; simp [fan] at hp; subst hp; simp [fan]
    | 2, hl =>
      simp [fan] at hl; subst hl; simp [fan] at hp
      rcases hp with rfl | rfl <;> simp [fan]
    | n + 3, hl => simp [fan] at hl
  parents := by
    intro l hl
    simp only [fan, List.mem_cons, List.not_mem_nil, or_false] at hl
    rcases hl with rfl | rfl | rfl <;> simp [fan]
  variance := by
    intro l hl
    simp only [fan, List.mem_cons, List.not_mem_nil, or_false] at hl
    rcases hl with rfl | rfl | rfl <;> simp [fan]

theorem fan_vars {X : ℕ → (ℕ → ℝ) → ℝ} (hX : Follows fan X) (z : ℕ → ℝ) :
    X 0 z = z 0 ∧ X 1 z = z 0 + z 1 ∧ X 2 z = 2 * z 0 + z 1 + z 2 := by
  have h0 := hX 0 0 rfl z
  have h1 := hX 1 1 rfl z
  have h2 := hX 2 2 rfl z
  simp [fan, linear] at h0 h1 h2
  rw [h0] at h1
  rw [h0, h1] at h2
  exact ⟨h0, h1, by rw [h2]; ring⟩

end Ex

/-- C35 is false: in the network `A → B`, `A → C`, `B → C` with unit coefficients and variances the
variance of `C` is 6, and `get_sigma` reports 4. -/
theorem C35_refuted : ∃ (net : GNet ℕ ℝ) (X : ℕ → (ℕ → ℝ) → ℝ), NetWf net ∧ Follows net X ∧
    net.getSigma (some [2]) = .ok [[4]] ∧ Cov normalMean (X 2) (X 2) = 6 := by
  obtain ⟨X, hX⟩ := follows_exists (Ex.fan_wf (K := ℝ))
  refine ⟨Ex.fan, X, Ex.fan_wf, hX, ?_, ?_⟩
  · obtain ⟨s, hs, hsym, hd, hc⟩ := sigmaMat_ok (Ex.fan_wf (K := ℝ))
    have h0 := hd 0 0 rfl
    have h1 := hd 1 1 rfl
    have h2 := hd 2 2 rfl
    simp [GNet.diagVal, GNet.links, GNet.pos, Ex.fan] at h0 h1 h2
    rw [getSigma_some hs (by simp) (by simp [Ex.fan])]
    simp only [List.map_cons, List.map_nil]
    have : (Ex.fan : GNet ℕ ℝ).pos 2 = 2 := by decide
    rw [this, h2, h1, h0]
    norm_num
  · have h : X 2 = affine 3 0 (fun k => if k = 0 then 2 else 1) := by
      funext z
      rw [(Ex.fan_vars hX z).2.2]
      unfold affine
      simp [Finset.sum_range_succ]
      ring
    rw [h, cov_affine (normal_expectation 3)]
    simp [Finset.sum_range_succ]
    norm_num

/-- C35: the reported matrix need not be a covariance matrix at all: in the same network it gives
`A + B - C` the variance -1. -/
theorem C35_refuted_psd : (Ex.fan : GNet ℕ ℚ).getSigma none =
      .ok [[1, 1, 2], [1, 2, 3], [2, 3, 4]] ∧
    ∑ i : Fin 3, ∑ j : Fin 3, ![1, 1, -1] i * ![1, 1, -1] j *
      entry [[1, 1, 2], [1, 2, 3], [2, 3, 4]] i j = (-1 : ℚ) := by
  constructor
  · decide +kernel
  · decide +kernel

/-- C57 is false: given `A` and `B` in the same network, `inference` reports the variance -1 for
`C`. -/
theorem C57_refuted : ∃ (setDiff : List ℕ → List ℕ → List ℕ) (pinv : List (List ℚ) → List (List ℚ)),
    NetWf (Ex.fan : GNet ℕ ℚ) ∧ IsSetDiff setDiff ∧ PinvAt pinv 2 [[1, 1], [1, 2]] ∧
    (Ex.fan : GNet ℕ ℚ).getSigma (some [0, 1]) = .ok [[1, 1], [1, 2]] ∧
    (Ex.fan : GNet ℕ ℚ).inference setDiff pinv (some [0, 1, 2]) [1, 2] [0, 1] =
      .ok ([3], [[-1]]) := by
  refine ⟨fun a b => a.dedup.filter (fun x => decide (x ∉ b)), fun _ => [[2, -1], [-1, 1]],
    Ex.fan_wf, ?_, ⟨rfl, by decide, ⟨?_, ?_, ?_, ?_⟩⟩, by decide +kernel, by decide +kernel⟩
  · intro a b
    refine ⟨(List.nodup_dedup a).filter _, ?_⟩
    intro l
    simp
  all_goals decide +kernel

namespace Ex

/-- Three unconnected variables with means 0, 10, 20; the library returns the order 0, 2, 1. -/
def apart {K : Type} [Field K] : GNet ℕ K :=
  { top := [0, 2, 1], cpd := fun l => ⟨[], [10 * (l : K)], 1⟩ }

theorem apart_wf {K : Type} [Field K] [LinearOrder K] [IsStrictOrderedRing K] :
    NetWf (apart : GNet ℕ K) where
  nodup := by simp [apart]
  beta := by intro l _; rfl
  order := by intro i l _ p hp; simp [apart] at hp
  parents := by intro l _; exact List.nodup_nil
  variance := by intro l _; exact zero_le_one

/-- Pseudo-inverse of `1 × 1` matrices. -/
def inv1 {K : Type} [Field K] : List (List K) → List (List K)
  | [[a]] => [[a⁻¹]]
  | _ => []

theorem pinv_one {K : Type} [Field K] {a p : Matrix (Fin 1) (Fin 1) K} (h : p 0 0 = (a 0 0)⁻¹) :
    IsPinv a p := by
  have e : ∀ (m : Matrix (Fin 1) (Fin 1) K) (i j : Fin 1), m i j = m 0 0 := by
    intro m i j
    rw [Fin.fin_one_eq_zero i, Fin.fin_one_eq_zero j]
  refine ⟨?_, ?_, ?_, ?_⟩ <;> ext i j <;>
    simp only [Matrix.mul_apply, Matrix.transpose_apply, Fin.sum_univ_one, e a i, e p i, e a j, e p j,
      e a 0, e p 0, h]
  · by_cases hx : a 0 0 = 0
    · simp [hx]
    · field_simp
  · by_cases hx : a 0 0 = 0
    · simp [hx]
    · field_simp

theorem inv1_spec {K : Type} [Field K] (a : List (List K)) (h : a.length = 1)
    (hr : ∀ r ∈ a, r.length = 1) : PinvAt inv1 1 a := by
  obtain ⟨r, rfl⟩ := List.length_eq_one_iff.1 h
  obtain ⟨x, rfl⟩ := List.length_eq_one_iff.1 (hr r (by simp))
  exact ⟨rfl, by intro r hr; simp [inv1] at hr; subst hr; rfl, pinv_one rfl⟩

/-- Set differences in the order of the first list. -/
def diff (a b : List ℕ) : List ℕ := a.dedup.filter (fun x => decide (x ∉ b))

theorem diff_spec : IsSetDiff diff := by
  intro a b
  refine ⟨(List.nodup_dedup a).filter _, ?_⟩
  intro l
  simp [diff]

end Ex

/-- C37 is false: variables `0, 1, 2` are independent with means 0, 10, 20 and variable 0 is fixed
to 5.  Drawing exactly the posterior mean must return `5, 10, 20`; the code returns `5, 20, 10`,
because `inference` and the constructor iterate over the free variables in different orders. -/
theorem C37_refuted : ∃ (net : GNet ℕ ℚ) (setDiff : List ℕ → List ℕ → List ℕ)
    (pinv fac : List (List ℚ) → List (List ℚ)),
    NetWf net ∧ IsSetDiff setDiff ∧
    (∀ a, a.length = 1 → (∀ r ∈ a, r.length = 1) → PinvAt pinv 1 a) ∧
    net.getMu (some [1, 2]) = .ok [10, 20] ∧
    net.getSigma none = .ok [[1, 0, 0], [0, 1, 0], [0, 0, 1]] ∧
    (net.sampleEvidence setDiff pinv fac [0, 1, 2] [(0, 5)] (some net.top) 1 (fun _ _ => 0)).map
      (fun g => g.rows) = .ok [[5, 20, 10]] :=
  ⟨Ex.apart, Ex.diff, Ex.inv1, id, Ex.apart_wf, Ex.diff_spec, Ex.inv1_spec, by decide +kernel,
    by decide +kernel, by decide +kernel⟩

/-- C37, with CPython's set iteration order: the same happens when the names 1 and 2 have hash
values that agree modulo 8. -/
theorem C37_refuted_cpython :
    pySetDiff (fun l => if l = 0 then 0 else 3) [0, 1, 2] [0] = [1, 2] ∧
    pySetDiff (fun l => if l = 0 then 0 else 3) [0, 2, 1] [0] = [2, 1] ∧
    ((Ex.apart : GNet ℕ ℚ).sampleEvidence (pySetDiff (fun l => if l = 0 then 0 else 3)) Ex.inv1 id
      [0, 1, 2] [(0, 5)] (some [0, 2, 1]) 1 (fun _ _ => 0)).map (fun g => g.rows) =
      .ok [[5, 20, 10]] := by
  refine ⟨by decide +kernel, by decide +kernel, by decide +kernel⟩

/-! ## Concrete instances -/

/-- C34 in the network `A → B`, `A → C`, `B → C` with standard normal draws. -/
example : ∃ X, Follows Ex.fan X ∧
    Ex.fan.getMu (some [2, 0]) = .ok [normalMean (X 2), normalMean (X 0)] := by
  obtain ⟨X, hX⟩ := follows_exists (Ex.fan_wf (K := ℝ))
  exact ⟨X, hX, C34_means Ex.fan_wf hX (normal_expectation 3) (by simp) (by simp [Ex.fan])⟩

/-- `C34_all`, `C34_order`, `C34_unknown`: the hypotheses are met. -/
example : (Ex.apart : GNet ℕ ℚ).getMu none = .ok [0, 20, 10] ∧
    (Ex.apart : GNet ℕ ℚ).getMu (some [1]) =
      ({ Ex.apart with top := [1, 2, 0] } : GNet ℕ ℚ).getMu (some [1]) ∧
    (Ex.apart : GNet ℕ ℚ).getMu (some [1, 7]) = .error .valueError := by
  refine ⟨by decide +kernel, ?_, C34_unknown Ex.apart_wf (l := 7) (by simp) (by simp [Ex.apart])⟩
  refine C34_order Ex.apart_wf ⟨by decide, by intro l _; rfl, ?_, by intro l _; exact List.nodup_nil,
    by intro l _; exact zero_le_one⟩ rfl ?_ (by simp) (by simp [Ex.apart])
  · intro i l _ p hp
    simp [Ex.apart] at hp
  · intro l
    simp only [Ex.apart, List.mem_cons, List.not_mem_nil, or_false]

/-- C35 and C57 where parents are uncorrelated: a chain `A → B` has one parent per node. -/
def Ex.chain {K : Type} [Field K] : GNet ℕ K :=
  { top := [0, 1], cpd := fun l => if l = 0 then ⟨[], [1], 4⟩ else ⟨[0], [2, 3], 1⟩ }

theorem Ex.chain_wf {K : Type} [Field K] [LinearOrder K] [IsStrictOrderedRing K] :
    NetWf (Ex.chain : GNet ℕ K) where
  nodup := by simp [Ex.chain]
  beta := by
    intro l hl
    simp only [Ex.chain, List.mem_cons, List.not_mem_nil, or_false] at hl
    rcases hl with rfl | rfl <;> simp [Ex.chain]
  order := by
    intro i l hl p hp
    match i, hl with
    | 0, hl => simp [Ex.chain] at hl; subst hl; simp [Ex.chain] at hp
    | 1, hl => simp [Ex.chain] at hl; subst hl; simp [Ex.chain] at hp; subst hp; simp [Ex.chain]
    | n + 2, hl => simp [Ex.chain] at hl
  parents := by
    intro l hl
    simp only [Ex.chain, List.mem_cons, List.not_mem_nil, or_false] at hl
    rcases hl with rfl | rfl <;> simp [Ex.chain]
  variance := by
    intro l hl
    simp only [Ex.chain, List.mem_cons, List.not_mem_nil, or_false] at hl
    rcases hl with rfl | rfl <;> simp [Ex.chain]

theorem Ex.chain_uncorrelated (E : ((ℕ → ℝ) → ℝ) → ℝ) (X : ℕ → (ℕ → ℝ) → ℝ) :
    UncorrelatedParents E Ex.chain X := by
  intro l _ p hp q hq hpq
  simp only [Ex.chain] at hp hq
  split at hp
  · simp at hp
  · rename_i h
    rw [if_neg h] at hq
    simp only [List.mem_cons, List.not_mem_nil, or_false] at hp hq
    exact absurd (hp.trans hq.symm) hpq

example : (Ex.chain : GNet ℕ ℚ).getSigma none = .ok [[4, 12], [12, 37]] ∧
    (Ex.chain : GNet ℕ ℚ).inference Ex.diff Ex.inv1 (some [0, 1]) [42] [1] =
      .ok ([1 + 12 / 37 * 37], [[4 - 144 / 37]]) := by
  constructor <;> decide +kernel

example : ∃ X, Follows Ex.chain X ∧
    (∃ mean cov, (∀ ev, ev.length = 1 →
        Ex.chain.inference Ex.diff Ex.inv1 (some [0, 1]) ev [1] = .ok (mean ev, cov)) ∧
      IsConditional normalMean X [0] [1] mean cov) := by
  obtain ⟨X, hX⟩ := follows_exists (Ex.chain_wf (K := ℝ))
  obtain ⟨mean, cov, h1, h2, _⟩ := C57_partial (pinv := Ex.inv1) Ex.chain_wf hX (normal_expectation 2)
    (Ex.chain_uncorrelated _ X) Ex.diff_spec (names := [1]) (by simp [Ex.chain]) Ex.inv1_spec
  exact ⟨X, hX, mean, cov, h1, h2⟩

/-- C36: hypotheses met by the chain, with the evidence equal to the prior mean. -/
example : ∃ cov, (Ex.chain : GNet ℕ ℚ).inference Ex.diff Ex.inv1 (some [0, 1]) [5] [1] =
    .ok ([1], cov) := by
  obtain ⟨mean, cov, h1, h2⟩ := C36_prior (pinv := Ex.inv1) (Ex.chain_wf (K := ℚ)) Ex.diff_spec
    (names := [1]) (by simp) (by simp [Ex.chain]) (by decide) Ex.inv1_spec (ev := [5])
    (by decide +kernel)
  have : mean = [1] := by
    have h3 : (Ex.chain : GNet ℕ ℚ).getMu (some (Ex.diff [0, 1] [1])) = .ok [1] := by decide +kernel
    exact Except.ok.inj (h1.symm.trans h3)
  rw [this] at h2
  exact ⟨cov, h2⟩

/-- C36: two evidence values for one variable are rejected. -/
example : (Ex.chain : GNet ℕ ℚ).inference Ex.diff Ex.inv1 (some [0, 1]) [5, 6] [1] =
    .error .valueError :=
  C36_length (Ex.chain_wf (K := ℚ)) Ex.diff_spec (by simp) (by simp [Ex.chain]) (by simp)

/-- C37 with agreeing orders. -/
example : ((Ex.chain : GNet ℕ ℚ).sampleEvidence Ex.diff Ex.inv1 id [0, 1] [(1, 5)] (some [0, 1]) 2
    (fun _ _ => 0)).map (fun g => g.rows) = .ok [[1, 5], [1, 5]] := by decide +kernel

/-- A library whose hill climbing returns exactly the white list: it honours the lists when they are
disjoint. -/
def Ex.lib : NetLib (List (ℕ × ℕ)) ℕ ℚ Unit where
  new := fun _ _ => []
  hc := fun _ args _ => if args.whitelist.any (fun a => a ∈ args.blacklist) then .error .valueError
    else .ok args.whitelist
  fit := fun s _ => .ok s
  sample := fun _ n _ => .ok { cols := [0, 1], rows := List.replicate n.toNat [0, 0] }
  arcs := id
  topSort := fun _ => [0, 1]
  cpd := fun _ _ => ⟨[], [0], 1⟩

theorem Ex.lib_honours : Honours Ex.lib where
  white := by
    intro data args ω pm h a ha
    simp only [Ex.lib] at h ⊢
    split at h
    · cases h
    · cases h; exact ha
  black := by
    intro data args ω pm h a ha hin
    simp only [Ex.lib] at h hin
    split at h
    · cases h
    · rename_i hno
      cases h
      apply hno
      rw [List.any_eq_true]
      exact ⟨a, hin, by simpa using ha⟩
  fit := by
    intro pm data pm' h
    cases h
    rfl

/-- C38 with the semiparametric network: `0 → 1` required, `1 → 0` forbidden. -/
example : ∃ b', (BNet.new Ex.lib .semiparametric [0, 1] (some [(0, 1)]) (some [(1, 0)])).learn Ex.lib
      { dt := .float, cols := 2, rows := [[1, 2]] } 10 () = .ok b' ∧
    (0, 1) ∈ b'.printStructure Ex.lib ∧ (1, 0) ∉ b'.printStructure Ex.lib := by
  refine ⟨_, rfl, ?_⟩
  have h := C38_lists Ex.lib_honours (b := BNet.new Ex.lib .semiparametric [0, 1] (some [(0, 1)])
    (some [(1, 0)])) (g := { dt := .float, cols := 2, rows := [[1, 2]] }) (numFolds := 10) (ω := ()) rfl
  exact ⟨h.1 _ rfl _ (by simp), h.2 _ rfl _ (by simp)⟩

end Verif
