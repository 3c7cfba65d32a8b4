/- The density of a linear Gaussian network in terms of the draws. -/
import Verif.Lemmas.NetPost
import Verif.Spec.NetDensity

set_option linter.unusedSectionVars false

namespace Verif

open Spec

section

variable {L : Type} [DecidableEq L] {net : GNet L ℝ} {X : L → (ℕ → ℝ) → ℝ}
  {dom : ((ℕ → ℝ) → ℝ) → Prop} {E : ((ℕ → ℝ) → ℝ) → ℝ}

/-- The draws that lead to the values `v`. -/
noncomputable def drawsOf (net : GNet L ℝ) (v : L → ℝ) (i : ℕ) : ℝ :=
  match net.top[i]? with
  | none => 0
  | some l => (v l - linear (net.cpd l) v) / Real.sqrt (net.cpd l).variance

/-- The nodes take the values `v` with these draws. -/
theorem drawsOf_values (hw : NetWf net) (hX : Follows net X)
    (hpos : ∀ l ∈ net.top, 0 < (net.cpd l).variance) (v : L → ℝ) :
    ∀ l ∈ net.top, X l (drawsOf net v) = v l := by
  have h : ∀ (n i : ℕ) (l : L), i < n → net.top[i]? = some l → X l (drawsOf net v) = v l := by
    intro n
    induction n with
    | zero => intro i l hi; omega
    | succ n ih =>
      intro i l hi hl
      have hs : Real.sqrt (net.cpd l).variance ≠ 0 :=
        (Real.sqrt_pos.2 (hpos l (List.mem_of_getElem? hl))).ne'
      rw [hX i l hl]
      have e : linear (net.cpd l) (fun p => X p (drawsOf net v)) = linear (net.cpd l) v := by
        apply linear_congr
        intro p hp
        obtain ⟨h1, h2⟩ := mem_of_order hw hl hp
        exact ih _ p (by omega) (top_pos h1)
      rw [e]
      unfold drawsOf
      rw [hl]
      field_simp
      ring
  intro l hl
  exact h _ _ l (Nat.lt_succ_self _) (top_pos hl)

theorem log_normal (m x : ℝ) {s : ℝ} (hs : 0 < s) :
    Real.log (ProbabilityTheory.gaussianPDFReal m (Real.toNNReal s) x) =
      -(Real.log (2 * Real.pi * s) / 2) - ((x - m) / Real.sqrt s) ^ 2 / 2 := by
  unfold ProbabilityTheory.gaussianPDFReal
  have h1 : 0 < 2 * Real.pi * s := by positivity
  rw [Real.coe_toNNReal _ hs.le, Real.log_mul (inv_ne_zero (Real.sqrt_pos.2 h1).ne')
    (Real.exp_pos _).ne', Real.log_exp, Real.log_inv, Real.log_sqrt h1.le, div_pow, Real.sq_sqrt hs.le]
  field_simp
  ring

/-- The density at the values that belong to the draws `z`. -/
theorem logDensity_draws (hw : NetWf net) (hX : Follows net X)
    (hpos : ∀ l ∈ net.top, 0 < (net.cpd l).variance) (v : L → ℝ) (z : ℕ → ℝ)
    (hv : ∀ l ∈ net.top, v l = X l z) :
    logDensity net v = -((net.top.map (fun l => Real.log (2 * Real.pi * (net.cpd l).variance))).sum / 2) -
      (∑ k ∈ Finset.range net.top.length, z k ^ 2) / 2 := by
  have h1 : logDensity net v = (net.top.map (fun l =>
      -(Real.log (2 * Real.pi * (net.cpd l).variance) / 2) - z (net.pos l) ^ 2 / 2)).sum := by
    unfold logDensity
    congr 1
    apply List.map_congr_left
    intro l hl
    rw [log_normal _ _ (hpos l hl)]
    congr 3
    have e : linear (net.cpd l) v = linear (net.cpd l) (fun p => X p z) := by
      apply linear_congr
      intro p hp
      exact hv p (mem_of_order hw (top_pos hl) hp).1
    rw [e, hv l hl, hX _ l (top_pos hl) z]
    have hs : Real.sqrt (net.cpd l).variance ≠ 0 := (Real.sqrt_pos.2 (hpos l hl)).ne'
    field_simp
    ring
  have h2 : ∀ (ls : List L) (f g : L → ℝ), (ls.map (fun l => -(f l / 2) - g l / 2)).sum =
      -((ls.map f).sum / 2) - (ls.map g).sum / 2 := by
    intro ls f g
    induction ls with
    | nil => simp
    | cons a ls ih => simp only [List.map_cons, List.sum_cons, ih]; ring
  have h3 : (net.top.map (fun l => z (net.pos l) ^ 2)).sum =
      ∑ k ∈ Finset.range net.top.length, z k ^ 2 := by
    rw [map_ofFn, List.sum_ofFn, Finset.sum_range]
    apply Finset.sum_congr rfl
    intro i _
    have hi : net.pos net.top[i] = i := pos_eq hw (List.getElem?_eq_getElem i.2)
    rw [hi]
  rw [h1, h2, h3]

/-- With the smallest draws that lead to the evidence, the other variables take their conditional
means. -/
theorem least_draws (hw : NetWf net) (hX : Follows net X) (hE : Expectation net.top.length dom E)
    (hv : VarianceAdds E net X) (hpos : ∀ l ∈ net.top, 0 < (net.cpd l).variance)
    {setDiff : List L → List L → List L} (hsd : IsSetDiff setDiff)
    {pinv : List (List ℝ) → List (List ℝ)} {names : List L} (hn : ∀ l ∈ names, l ∈ net.top)
    (hp : PinvAt pinv names.length (gramRows (fun l l' => Cov E (X l) (X l')) names names))
    (v : L → ℝ) :
    ∃ (z : ℕ → ℝ) (w : Fin names.length → ℝ) (cov : List (List ℝ)),
      net.inference setDiff pinv (some net.top) (names.map v) names =
        .ok ((setDiff net.top names).map (fun l => X l z), cov) ∧
      (∀ b ∈ names, X b z = v b) ∧
      ∀ k, z k = ∑ a, w a * load X names[a] k := by
  obtain ⟨mu, hmu, heq⟩ := muVec_ok hw
  obtain ⟨s, hs, hsym, hd, hc⟩ := sigmaMat_ok hw
  have hcov := (sigma_iff hw hX hE hsym hd hc).2 ((crossTerm_iff hw hX hE).2 hv)
  have hblk : net.block s names = gramRows (fun l l' => Cov E (X l) (X l')) names names := by
    unfold GNet.block gramRows
    apply List.map_congr_left
    intro l hl
    apply List.map_congr_left
    intro l' hl'
    exact hcov l (hn l hl) l' (hn l' hl')
  obtain ⟨free, hfree⟩ : ∃ free, free = setDiff net.top names := ⟨_, rfl⟩
  have hfm : ∀ l ∈ free, l ∈ net.top := fun l hl => by
    rw [hfree] at hl; exact (((hsd _ _).2 l).1 hl).1
  have hinf := inference_mat hw hmu hs hsd hn (pinv := pinv) (by rw [hblk]; exact hp.rows)
    (by rw [hblk]; exact hp.cols) hfree (ev := names.map v) (by simp)
  rw [hblk] at hinf
  obtain ⟨P, hPd⟩ : ∃ P, P = mat names.length
    (pinv (gramRows (fun l l' => Cov E (X l) (X l')) names names)) := ⟨_, rfl⟩
  have hP := hp.inverse
  rw [← hPd] at hP hinf
  obtain ⟨B, hB⟩ : ∃ B, B = loads X net.top.length names := ⟨_, rfl⟩
  have g22 : mat names.length (gramRows (fun l l' => Cov E (X l) (X l')) names names) =
      B * B.transpose := by
    funext i j
    rw [hB, cov_loads hw hX hE hn hn]
    exact entry_grid _ _ _ (List.getElem?_eq_getElem i.2) (List.getElem?_eq_getElem j.2)
  rw [g22] at hP
  have hd' : ∀ b : Fin names.length, (names.map v).getD b 0 - mu (net.pos names[b]) =
      v names[b] - X names[b] (fun _ => 0) := by
    intro b
    have hb := hn _ (List.getElem_mem b.2)
    rw [List.getD_eq_getElem?_getD, List.getElem?_map, List.getElem?_eq_getElem b.2]
    have := (mean_eq hw hX hE heq hb).trans (follows_mean hw hX hE hb)
    show v names[b] - _ = _
    exact congrArg _ this
  simp only [hd'] at hinf
  obtain ⟨w, hwd⟩ : ∃ w, w = P.mulVec (fun b : Fin names.length =>
    v names[b] - X names[b] (fun _ => 0)) := ⟨_, rfl⟩
  rw [← hwd] at hinf
  obtain ⟨z, hz⟩ : ∃ z : ℕ → ℝ, z = fun k => ∑ a, w a * load X names[a] k := ⟨_, rfl⟩
  have hXz : ∀ l ∈ net.top, X l z = X l (fun _ => 0) +
      ∑ a, Cov E (X l) (X names[a]) * w a := by
    intro l hl
    rw [congrFun (follows_affine hw hX (net.pos l + 1) _ l (by omega) (top_pos hl)) z]
    unfold affine
    congr 1
    rw [hz]
    simp only [Finset.sum_mul]
    rw [Finset.sum_comm]
    apply Finset.sum_congr rfl
    intro a _
    have ha : names[a] ∈ net.top := hn _ (List.getElem_mem a.2)
    rw [follows_cov hw hX hE hl ha, Finset.sum_mul]
    apply Finset.sum_congr rfl
    intro k _
    ring
  have hmean : (List.ofFn fun i : Fin free.length => mu (net.pos free[i]) +
      (gram (fun l l' => s (net.pos l) (net.pos l')) free names).mulVec w i) =
      free.map (fun l => X l z) := by
    rw [map_ofFn]
    congr 1
    funext i
    have hi : free[i] ∈ net.top := hfm _ (List.getElem_mem i.2)
    rw [hXz _ hi]
    congr 1
    · exact (mean_eq hw hX hE heq hi).trans (follows_mean hw hX hE hi)
    · simp only [Matrix.mulVec, dotProduct, gram]
      apply Finset.sum_congr rfl
      intro a _
      congr 1
      exact hcov _ hi _ (hn _ (List.getElem_mem a.2))
  rw [hmean] at hinf
  rw [← hfree]
  refine ⟨z, w, _, hinf, ?_, fun k => by rw [hz]⟩
  · have hsymP : P.transpose = P := pinv_symm (by rw [Matrix.transpose_mul, Matrix.transpose_transpose]) hP
    have h1 : B * B.transpose * P * B = B := by
      have h := gram_pinv (A := (1 : Matrix (Fin net.top.length) (Fin net.top.length) ℝ)) hP
      rw [Matrix.one_mul] at h
      have h2 := congrArg Matrix.transpose h
      simp only [Matrix.transpose_mul, Matrix.transpose_transpose, hsymP] at h2
      rw [Matrix.mul_assoc (B * B.transpose)]
      exact h2
    -- the deviation of the evidence from the means comes from draws
    have h2 : (fun b : Fin names.length => v names[b] - X names[b] (fun _ => 0)) =
        B.mulVec (fun k => drawsOf net v k) := by
      funext b
      have hb : names[b] ∈ net.top := hn _ (List.getElem_mem b.2)
      have h3 := drawsOf_values hw hX hpos v _ hb
      rw [congrFun (follows_affine hw hX (net.pos names[b] + 1) _ _ (by omega) (top_pos hb)) (drawsOf net v)] at h3
      rw [hB]
      simp only [Matrix.mulVec, dotProduct, loads]
      unfold affine at h3
      rw [Finset.sum_range] at h3
      rw [← h3]
      simp only [mul_comm]
      exact add_sub_cancel_left _ _
    intro b hb
    obtain ⟨m, hm, rfl⟩ := List.getElem_of_mem hb
    rw [hXz _ (hn _ hb)]
    have h3 : ∑ a, Cov E (X names[m]) (X names[a]) * w a =
        ((B * B.transpose).mulVec w) ⟨m, hm⟩ := by
      simp only [Matrix.mulVec, dotProduct]
      apply Finset.sum_congr rfl
      intro a _
      rw [hB, cov_loads hw hX hE hn hn]
      rfl
    rw [h3, hwd, h2, Matrix.mulVec_mulVec, Matrix.mulVec_mulVec, h1, ← h2]
    exact add_sub_cancel _ _

/-- Every other way to meet the evidence needs larger draws. -/
theorem draws_larger (hw : NetWf net) (hX : Follows net X) {names : List L}
    (hn : ∀ l ∈ names, l ∈ net.top) {z y : ℕ → ℝ} {w : Fin names.length → ℝ}
    (hz : ∀ k, z k = ∑ a, w a * load X names[a] k) (h : ∀ b ∈ names, X b y = X b z) :
    ∑ k ∈ Finset.range net.top.length, y k ^ 2 = ∑ k ∈ Finset.range net.top.length, z k ^ 2 +
      ∑ k ∈ Finset.range net.top.length, (y k - z k) ^ 2 := by
  have h0 : ∑ k ∈ Finset.range net.top.length, (y k - z k) * z k = 0 := by
    simp only [hz, Finset.mul_sum]
    rw [Finset.sum_comm]
    apply Finset.sum_eq_zero
    intro a _
    have hb : names[a] ∈ net.top := hn _ (List.getElem_mem a.2)
    have h1 := h names[a] (List.getElem_mem a.2)
    have ha := follows_affine hw hX (net.pos names[a] + 1) _ _ (by omega) (top_pos hb)
    rw [congrFun ha y, congrFun ha z] at h1
    unfold affine at h1
    have h2 := add_left_cancel h1
    have h3 : ∑ k ∈ Finset.range net.top.length, (y k - z k) * (w a * load X names[a] k) =
        w a * (∑ k ∈ Finset.range net.top.length, y k * load X names[a] k -
          ∑ k ∈ Finset.range net.top.length, z k * load X names[a] k) := by
      rw [← Finset.sum_sub_distrib, Finset.mul_sum]
      apply Finset.sum_congr rfl
      intro k _
      ring
    simp only [← hz]
    rw [h3, h2, sub_self, mul_zero]
  have h1 : ∀ k, y k ^ 2 = z k ^ 2 + (y k - z k) ^ 2 + 2 * ((y k - z k) * z k) := by intro k; ring
  simp only [h1, Finset.sum_add_distrib, ← Finset.mul_sum, h0, mul_zero, add_zero]

end

end Verif
