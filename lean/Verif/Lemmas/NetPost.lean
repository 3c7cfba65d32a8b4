/- Posterior of a linear Gaussian network; existence of the variables of a network. -/
import Verif.Lemmas.NetInfer

set_option linter.unusedSectionVars false

namespace Verif

open Spec

section

variable {L : Type} [DecidableEq L] {net : GNet L ℝ} {X : L → (ℕ → ℝ) → ℝ}
  {dom : ((ℕ → ℝ) → ℝ) → Prop} {E : ((ℕ → ℝ) → ℝ) → ℝ}

/-- Values of the nodes by recursion (with fuel). -/
noncomputable def netVal (net : GNet L ℝ) : ℕ → L → (ℕ → ℝ) → ℝ
  | 0, _, _ => 0
  | n + 1, l, z => linear (net.cpd l) (fun p => netVal net n p z) +
      Real.sqrt (net.cpd l).variance * z (net.pos l)

theorem netVal_stable (hw : NetWf net) (z : ℕ → ℝ) :
    ∀ (n i : ℕ) (l : L), net.top[i]? = some l → i < n →
      ∀ m, i < m → netVal net m l z = netVal net n l z := by
  intro n
  induction n with
  | zero => intro i l _ hi; omega
  | succ n ih =>
    intro i l hl hi m hm
    obtain ⟨m, rfl⟩ : ∃ k, m = k + 1 := ⟨m - 1, by omega⟩
    simp only [netVal]
    congr 1
    apply linear_congr
    intro p hp
    obtain ⟨hpt, hlt⟩ := mem_of_order hw hl hp
    exact ih _ p (top_pos hpt) (by omega) m (by omega)

/-- Every well-formed network has variables that follow it. -/
theorem follows_exists (hw : NetWf net) : ∃ X, Follows net X := by
  refine ⟨netVal net (net.top.length + 1), ?_⟩
  intro i l hl z
  have hi := (List.getElem?_eq_some_iff.1 hl).1
  rw [netVal, pos_eq hw hl]
  congr 1
  apply linear_congr
  intro p hp
  obtain ⟨hpt, hlt⟩ := mem_of_order hw hl hp
  exact netVal_stable hw z _ _ p (top_pos hpt) (by omega) _ (by omega)

/-- The means solve the mean equations. -/
theorem mean_eq (hw : NetWf net) (hX : Follows net X) (hE : Expectation net.top.length dom E)
    {mu : ℕ → ℝ} (hmu : ∀ (i : ℕ) (l : L), net.top[i]? = some l →
      mu i = linear (net.cpd l) (fun p => mu (net.pos p))) {l : L} (hl : l ∈ net.top) :
    mu (net.pos l) = E (X l) := by
  rw [follows_mean hw hX hE hl]
  refine linear_unique hw (x := fun l => mu (net.pos l)) (y := fun l => X l (fun _ => 0))
    (fun c v => linear c v) (fun c u v h => linear_congr c h) ?_ ?_ l hl
  · intro l hl
    exact hmu _ l (top_pos hl)
  · intro l hl
    show X l _ = _
    rw [hX _ l (top_pos hl)]
    simp

/-- Loads of some nodes as a matrix. -/
def loads (X : L → (ℕ → ℝ) → ℝ) (N : ℕ) (ls : List L) : Matrix (Fin ls.length) (Fin N) ℝ :=
  fun i k => load X ls[i] k

theorem cov_loads (hw : NetWf net) (hX : Follows net X) (hE : Expectation net.top.length dom E)
    {ls ls' : List L} (h : ∀ l ∈ ls, l ∈ net.top) (h' : ∀ l ∈ ls', l ∈ net.top)
    (i : Fin ls.length) (j : Fin ls'.length) :
    (loads X net.top.length ls * (loads X net.top.length ls').transpose) i j =
      Cov E (X ls[i]) (X ls'[j]) := by
  have hi : ls[i] ∈ net.top := h _ (List.getElem_mem i.2)
  have hj : ls'[j] ∈ net.top := h' _ (List.getElem_mem j.2)
  rw [follows_cov hw hX hE hi hj, ← Fin.sum_univ_eq_sum_range
    (fun k => load X ls[i] k * load X ls'[j] k)]
  rfl

/-- Linear combinations of the nodes are affine functions of the draws. -/
theorem resid_affine (hw : NetWf net) (hX : Follows net X) {l : L} (hl : l ∈ net.top)
    {ls : List L} (h : ∀ l ∈ ls, l ∈ net.top) (w : Fin ls.length → ℝ) (c : ℝ) :
    (fun z => X l z - (c + ∑ a, w a * X ls[a] z)) =
      affine net.top.length (X l (fun _ => 0) - (c + ∑ a, w a * X ls[a] (fun _ => 0)))
        (fun k => load X l k - ∑ a, w a * load X ls[a] k) := by
  have ha : ∀ l ∈ net.top, ∀ z, X l z = affine net.top.length (X l (fun _ => 0)) (load X l) z := by
    intro l hl z
    exact congrFun (follows_affine hw hX (net.pos l + 1) _ l (by omega) (top_pos hl)) z
  funext z
  have hs : ∑ a, w a * X ls[a] z = ∑ a, w a * X ls[a] (fun _ => 0) +
      ∑ a, w a * ∑ k ∈ Finset.range net.top.length, z k * load X ls[a] k := by
    rw [← Finset.sum_add_distrib]
    apply Finset.sum_congr rfl
    intro a _
    have hm : ls[a] ∈ net.top := h _ (List.getElem_mem a.2)
    rw [ha _ hm z]
    unfold affine
    ring
  rw [hs, ha l hl z]
  simp only [affine]
  have hk : ∑ k ∈ Finset.range net.top.length, z k * (load X l k - ∑ a, w a * load X ls[a] k) =
      (∑ k ∈ Finset.range net.top.length, z k * load X l k) -
        ∑ a, w a * ∑ k ∈ Finset.range net.top.length, z k * load X ls[a] k := by
    simp only [mul_sub, Finset.sum_sub_distrib, Finset.mul_sum]
    rw [Finset.sum_comm]
    simp only [mul_left_comm]
  rw [hk]
  ring

theorem crossTerm_iff (hw : NetWf net) (hX : Follows net X) (hE : Expectation net.top.length dom E) :
    (∀ l ∈ net.top, crossTerm E net X l = 0) ↔ VarianceAdds E net X := by
  unfold VarianceAdds
  refine forall_congr' (fun l => forall_congr' (fun hl => ?_))
  rw [var_split hw hX hE (top_pos hl),
    zipWith_sum _ 0 _ _ (by have := hw.beta l hl; rw [List.length_drop]; omega)]
  simp only [getD_drop_one]
  have : ∀ k : Fin (net.cpd l).evidence.length,
      Cov E (X (net.cpd l).evidence[k]) (X (net.cpd l).evidence[k]) * net.coef l k ^ 2 =
      (net.cpd l).beta.getD (↑k + 1) 0 ^ 2 *
        Cov E (X (net.cpd l).evidence[k]) (X (net.cpd l).evidence[k]) := by
    intro k; rw [mul_comm]; rfl
  simp only [this]
  constructor
  · intro h; rw [h, add_zero]
  · intro h; linarith

theorem crossTerm_zero (hw : NetWf net) (hu : UncorrelatedParents E net X) {l : L}
    (hl : l ∈ net.top) : crossTerm E net X l = 0 := by
  unfold crossTerm
  apply Finset.sum_eq_zero
  intro k _
  apply Finset.sum_eq_zero
  intro m _
  by_cases hkm : k = m
  · rw [if_pos hkm]
  · rw [if_neg hkm]
    have hne : (net.cpd l).evidence[k] ≠ (net.cpd l).evidence[m] := by
      intro he
      exact hkm (Fin.ext ((hw.parents l hl).getElem_inj_iff.1 he))
    have h0 : Cov E (X (net.cpd l).evidence[k]) (X (net.cpd l).evidence[m]) = 0 :=
      hu l hl _ (List.getElem_mem k.2) _ (List.getElem_mem m.2) hne
    rw [h0, mul_zero]

end

section formula

variable {L K : Type} [DecidableEq L] [Field K] [LinearOrder K] {net : GNet L K}

theorem map_ofFn {α β : Type} (l : List α) (f : α → β) :
    l.map f = List.ofFn (fun i : Fin l.length => f l[i]) := by
  apply List.ext_getElem
  · simp
  · intro i h1 h2
    simp

/-- `inference` in matrix notation. -/
theorem inference_mat (hw : NetWf net) {mu : ℕ → K} (hmu : net.muVec = .ok mu) {s : ℕ → ℕ → K}
    (hs : net.sigmaMat = .ok s) {setDiff : List L → List L → List L} (hsd : IsSetDiff setDiff)
    {pinv : List (List K) → List (List K)} {names : List L} (hn : ∀ l ∈ names, l ∈ net.top)
    (hpr : (pinv (net.block s names)).length = names.length)
    (hpc : ∀ r ∈ pinv (net.block s names), r.length = names.length)
    {free : List L} (hfree : free = setDiff net.top names) {ev : List K} (hev : ev.length = names.length) :
    net.inference setDiff pinv (some net.top) ev names = .ok
      (List.ofFn (fun i : Fin free.length =>
        mu (net.pos free[i]) +
          (gram (fun l l' => s (net.pos l) (net.pos l')) free names).mulVec
            ((mat names.length (pinv (net.block s names))).mulVec
              (fun b => ev.getD b 0 - mu (net.pos names[b]))) i),
       List.ofFn (fun i : Fin free.length =>
        List.ofFn (fun j : Fin free.length =>
          (gram (fun l l' => s (net.pos l) (net.pos l')) free
              free -
            gram (fun l l' => s (net.pos l) (net.pos l')) free names *
              (mat names.length (pinv (net.block s names)) *
                gram (fun l l' => s (net.pos l) (net.pos l')) names
                  free)) i j))) := by
  subst hfree
  rw [inference_eq hw hmu hs hsd hn hpr hpc hev]
  simp only [map_ofFn]
  rfl

end formula

section posterior

variable {L : Type} [DecidableEq L] {net : GNet L ℝ} {X : L → (ℕ → ℝ) → ℝ}
  {dom : ((ℕ → ℝ) → ℝ) → Prop} {E : ((ℕ → ℝ) → ℝ) → ℝ}

theorem sum_range_mat {n1 n2 N : ℕ} (A : Matrix (Fin n1) (Fin N) ℝ) (B : Matrix (Fin n2) (Fin N) ℝ)
    (i : Fin n1) (j : Fin n2) (f g : ℕ → ℝ) (hf : ∀ k : Fin N, f k = A i k)
    (hg : ∀ k : Fin N, g k = B j k) :
    ∑ k ∈ Finset.range N, f k * g k = (A * B.transpose) i j := by
  rw [← Fin.sum_univ_eq_sum_range (fun k => f k * g k), Matrix.mul_apply]
  apply Finset.sum_congr rfl
  intro k _
  rw [hf, hg]
  rfl

/-- When the variances add up, `inference` is the conditional distribution in the network. -/
theorem inference_conditional (hw : NetWf net) (hX : Follows net X)
    (hE : Expectation net.top.length dom E) (hv : VarianceAdds E net X)
    {setDiff : List L → List L → List L} (hsd : IsSetDiff setDiff)
    {pinv : List (List ℝ) → List (List ℝ)} {names : List L} (hn : ∀ l ∈ names, l ∈ net.top)
    (hp : PinvAt pinv names.length (gramRows (fun l l' => Cov E (X l) (X l')) names names)) :
    ∃ mean cov, (∀ ev, ev.length = names.length →
        net.inference setDiff pinv (some net.top) ev names = .ok (mean ev, cov)) ∧
      IsConditional E X (setDiff net.top names) names mean cov ∧
      ∀ x : ℕ → ℝ, 0 ≤ ∑ i ∈ Finset.range (setDiff net.top names).length,
        ∑ j ∈ Finset.range (setDiff net.top names).length, x i * x j * entry cov i j := by
  obtain ⟨mu, hmu, heq⟩ := muVec_ok hw
  obtain ⟨s, hs, hsym, hd, hc⟩ := sigmaMat_ok hw
  have hcov := (sigma_iff hw hX hE hsym hd hc).2 ((crossTerm_iff hw hX hE).2 hv)
  have hblk : net.block s names = gramRows (fun l l' => Cov E (X l) (X l')) names names := by
    unfold GNet.block gramRows
    apply List.map_congr_left
    intro l hl
    apply List.map_congr_left
    intro l' hl'
    exact hcov l (hn l hl) l' (hn l' hl')
  obtain ⟨free, hfree⟩ : ∃ free, free = setDiff net.top names := ⟨_, rfl⟩
  have hfm : ∀ l ∈ free, l ∈ net.top := fun l hl => by
    rw [hfree] at hl; exact (((hsd _ _).2 l).1 hl).1
  have hinf := fun ev hev => inference_mat hw hmu hs hsd hn (pinv := pinv) (by rw [hblk]; exact hp.rows)
    (by rw [hblk]; exact hp.cols) hfree (ev := ev) hev
  rw [← hfree]
  rw [hblk] at hinf
  have hP := hp.inverse
  obtain ⟨P, hPd⟩ : ∃ P, P = mat names.length
    (pinv (gramRows (fun l l' => Cov E (X l) (X l')) names names)) := ⟨_, rfl⟩
  rw [← hPd] at hP hinf
  obtain ⟨N, hN⟩ : ∃ N, N = net.top.length := ⟨_, rfl⟩
  obtain ⟨A, hA⟩ : ∃ A, A = loads X net.top.length free := ⟨_, rfl⟩
  obtain ⟨B, hB⟩ : ∃ B, B = loads X net.top.length names := ⟨_, rfl⟩
  have g11 : gram (fun l l' => s (net.pos l) (net.pos l')) free free = A * A.transpose := by
    funext i j
    rw [hA, cov_loads hw hX hE hfm hfm]
    exact hcov _ (hfm _ (List.getElem_mem i.2)) _ (hfm _ (List.getElem_mem j.2))
  have g12 : gram (fun l l' => s (net.pos l) (net.pos l')) free names = A * B.transpose := by
    funext i j
    rw [hA, hB, cov_loads hw hX hE hfm hn]
    exact hcov _ (hfm _ (List.getElem_mem i.2)) _ (hn _ (List.getElem_mem j.2))
  have g21 : gram (fun l l' => s (net.pos l) (net.pos l')) names free = B * A.transpose := by
    funext i j
    rw [hA, hB, cov_loads hw hX hE hn hfm]
    exact hcov _ (hn _ (List.getElem_mem i.2)) _ (hfm _ (List.getElem_mem j.2))
  have g22 : mat names.length (gramRows (fun l l' => Cov E (X l) (X l')) names names) =
      B * B.transpose := by
    funext i j
    rw [hB, cov_loads hw hX hE hn hn]
    exact entry_grid _ _ _ (List.getElem?_eq_getElem i.2) (List.getElem?_eq_getElem j.2)
  rw [g11, g12, g21] at hinf
  rw [g22] at hP
  obtain ⟨W, hW⟩ : ∃ W, W = A * B.transpose * P := ⟨_, rfl⟩
  have orth : (A - W * B) * B.transpose = 0 := by
    rw [Matrix.sub_mul, Matrix.mul_assoc W, hW, gram_pinv hP, sub_self]
  have hcv : (A - W * B) * (A - W * B).transpose =
      A * A.transpose - A * B.transpose * (P * (B * A.transpose)) := by
    rw [Matrix.transpose_sub, Matrix.transpose_mul, Matrix.mul_sub, ← Matrix.mul_assoc, orth,
      Matrix.zero_mul, sub_zero, Matrix.sub_mul, hW]
    simp only [Matrix.mul_assoc]
  refine ⟨fun ev => List.ofFn (fun i : Fin free.length => mu (net.pos free[i]) +
      (A * B.transpose).mulVec (P.mulVec (fun b : Fin names.length =>
        ev.getD b 0 - mu (net.pos names[b]))) i),
    List.ofFn (fun i => List.ofFn (fun j =>
      (A * A.transpose - A * B.transpose * (P * (B * A.transpose))) i j)), hinf, ?_⟩
  -- the residuals as affine functions of the draws
  have hres : ∀ (i : ℕ) (l : L) (hi : i < free.length), free[i]? = some l →
      (fun z => X l z - (List.ofFn (fun i : Fin free.length => mu (net.pos free[i]) +
          (A * B.transpose).mulVec (P.mulVec (fun b : Fin names.length =>
            (names.map (fun b => X b z)).getD b 0 - mu (net.pos names[b]))) i)).getD i 0) =
      affine net.top.length 0 (fun k => load X l k - ∑ a, W ⟨i, hi⟩ a * load X names[a] k) := by
    intro i l hi hl
    have hlt : l ∈ net.top := hfm l (List.mem_of_getElem? hl)
    have hli : free[i] = l := (List.getElem?_eq_some_iff.1 hl).2
    have h1 := resid_affine hw hX hlt hn (W ⟨i, hi⟩)
      (E (X l) - ∑ a, W ⟨i, hi⟩ a * E (X names[a]))
    have h0 : X l (fun _ => 0) - (E (X l) - ∑ a, W ⟨i, hi⟩ a * E (X names[a]) +
        ∑ a, W ⟨i, hi⟩ a * X names[a] (fun _ => 0)) = 0 := by
      have : ∀ a : Fin names.length, E (X names[a]) = X names[a] (fun _ => 0) := fun a =>
        follows_mean hw hX hE (hn _ (List.getElem_mem a.2))
      simp only [this, follows_mean hw hX hE hlt]
      ring
    rw [h0] at h1
    rw [← h1]
    funext z
    have hgd : ∀ b : Fin names.length,
        (names.map (fun b => X b z)).getD b 0 - mu (net.pos names[b]) =
          X names[b] z - E (X names[b]) := by
      intro b
      rw [List.getD_eq_getElem?_getD, List.getElem?_map, List.getElem?_eq_getElem b.2]
      have := mean_eq hw hX hE heq (hn _ (List.getElem_mem b.2))
      show X names[b] z - _ = _
      exact congrArg _ this
    have hof : ∀ g : Fin free.length → ℝ, (List.ofFn g).getD i 0 = g ⟨i, hi⟩ := by
      intro g
      rw [List.getD_eq_getElem?_getD, List.getElem?_ofFn, dif_pos hi]
      rfl
    rw [hof]
    simp only [hgd]
    have hm : mu (net.pos free[(⟨i, hi⟩ : Fin free.length)]) = E (X l) := by
      show mu (net.pos free[i]) = _
      rw [hli]
      exact mean_eq hw hX hE heq hlt
    rw [hm, Matrix.mulVec_mulVec, ← hW]
    simp only [Matrix.mulVec, dotProduct, mul_sub, Finset.sum_sub_distrib]
    ring
  have hload : ∀ (i : ℕ) (l : L) (hi : i < free.length), free[i]? = some l → ∀ k : Fin net.top.length,
      load X l k - ∑ a, W ⟨i, hi⟩ a * load X names[a] k = (A - W * B) ⟨i, hi⟩ k := by
    intro i l hi hl k
    have hli : free[i] = l := (List.getElem?_eq_some_iff.1 hl).2
    rw [Matrix.sub_apply, Matrix.mul_apply, hA, hB]
    show _ = load X free[i] k - _
    rw [hli]
    rfl
  have hent : ∀ (i j : ℕ) (hi : i < free.length) (hj : j < free.length),
      entry (List.ofFn (fun i => List.ofFn (fun j =>
        (A * A.transpose - A * B.transpose * (P * (B * A.transpose))) i j))) i j =
      ((A - W * B) * (A - W * B).transpose) ⟨i, hi⟩ ⟨j, hj⟩ := by
    intro i j hi hj
    rw [hcv]
    unfold entry
    rw [List.getD_eq_getElem?_getD, List.getD_eq_getElem?_getD, List.getElem?_ofFn, dif_pos hi,
      Option.getD_some, List.getElem?_ofFn, dif_pos hj, Option.getD_some]
  refine ⟨⟨?_, ?_, ?_⟩, ?_⟩
  · intro i l hl
    have hi := (List.getElem?_eq_some_iff.1 hl).1
    rw [hres i l hi hl, exp_affine hE]
  · intro i l hl b hb
    have hi := (List.getElem?_eq_some_iff.1 hl).1
    obtain ⟨m, hm⟩ := List.mem_iff_getElem?.1 hb
    have hml := (List.getElem?_eq_some_iff.1 hm).1
    have hbe : names[m] = b := (List.getElem?_eq_some_iff.1 hm).2
    rw [hres i l hi hl, follows_affine hw hX _ _ b (Nat.lt_succ_self _) (top_pos (hn b hb)),
      cov_affine hE]
    rw [sum_range_mat (A - W * B) B ⟨i, hi⟩ ⟨m, hml⟩ _ _ (hload i l hi hl), orth]
    · rfl
    · intro k
      rw [hB]
      show _ = load X names[m] k
      rw [hbe]
  · intro i l hl j l' hl'
    have hi := (List.getElem?_eq_some_iff.1 hl).1
    have hj := (List.getElem?_eq_some_iff.1 hl').1
    rw [hres i l hi hl, hres j l' hj hl', cov_affine hE,
      sum_range_mat (A - W * B) (A - W * B) ⟨i, hi⟩ ⟨j, hj⟩ _ _ (hload i l hi hl) (hload j l' hj hl')]
    exact hent i j hi hj
  · intro x
    have h1 : ∑ i ∈ Finset.range free.length, ∑ j ∈ Finset.range free.length, x i * x j *
        entry (List.ofFn (fun i => List.ofFn (fun j =>
          (A * A.transpose - A * B.transpose * (P * (B * A.transpose))) i j))) i j =
        ∑ k, (∑ i : Fin free.length, x i * (A - W * B) i k) ^ 2 := by
      rw [← Fin.sum_univ_eq_sum_range]
      have h2 : ∀ i : Fin free.length, ∑ j ∈ Finset.range free.length, x i * x j *
          entry (List.ofFn (fun i => List.ofFn (fun j =>
            (A * A.transpose - A * B.transpose * (P * (B * A.transpose))) i j))) i j =
          ∑ j : Fin free.length, ∑ k, (x i * (A - W * B) i k) * (x j * (A - W * B) j k) := by
        intro i
        rw [← Fin.sum_univ_eq_sum_range]
        apply Finset.sum_congr rfl
        intro j _
        rw [hent i j i.2 j.2, Matrix.mul_apply, Finset.mul_sum]
        apply Finset.sum_congr rfl
        intro k _
        rw [Matrix.transpose_apply]
        ring
      simp only [h2, pow_two, Finset.sum_mul_sum]
      rw [Finset.sum_comm (s := (Finset.univ : Finset (Fin net.top.length)))]
      apply Finset.sum_congr rfl
      intro i _
      exact Finset.sum_comm
    rw [h1]
    exact Finset.sum_nonneg (fun k _ => sq_nonneg _)

end posterior

end Verif
