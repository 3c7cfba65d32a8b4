/- C92: `maximum_a_posteriori` and the density of the network. -/
import Verif.Lemmas.NetDensity
import Verif.Props.NetEvidence

set_option linter.unusedSectionVars false

namespace Verif

open Spec

section mode

variable {L : Type} [DecidableEq L] {net : GNet L ℝ} {X : L → (ℕ → ℝ) → ℝ}
  {dom : ((ℕ → ℝ) → ℝ) → Prop} {E : ((ℕ → ℝ) → ℝ) → ℝ} {setDiff : List L → List L → List L}
  {pinv : List (List ℝ) → List (List ℝ)}

/-- C92 for networks whose variances `get_sigma` reports correctly (see `C35_exact`): the values that
`maximum_a_posteriori` returns are the unique maximum of the density given the evidence. -/
theorem C92_variances (hw : NetWf net) (hX : Follows net X) (hE : Expectation net.top.length dom E)
    (hv : VarianceAdds E net X) (hpos : ∀ l ∈ net.top, 0 < (net.cpd l).variance)
    (hsd : IsSetDiff setDiff) {names : List L} (hd : names.Nodup) (hn : ∀ l ∈ names, l ∈ net.top)
    (hp : ∀ a : List (List ℝ), a.length = names.length → (∀ r ∈ a, r.length = names.length) →
      PinvAt pinv names.length a) {ev : List ℝ} (hev : ev.length = names.length) :
    ∃ m, net.map setDiff pinv true (some net.top) ev names = .ok m ∧
      (∃ v, names.map v = ev ∧ (setDiff net.top names).map v = m) ∧
      IsMode net (setDiff net.top names) names ev m := by
  obtain ⟨v0, hv0⟩ : ∃ v0 : L → ℝ, names.map v0 = ev := by
    refine ⟨fun l => ev.getD (names.idxOf l) 0, ?_⟩
    apply List.ext_getElem
    · simp [hev]
    · intro i h1 h2
      rw [List.getElem_map, hd.idxOf_getElem, List.getD_eq_getElem?_getD, List.getElem?_eq_getElem h2]
      rfl
  obtain ⟨z, w, cov, hinf, hb, hz⟩ := least_draws hw hX hE hv hpos hsd hn
    (hp _ (by simp [gramRows]) (by
      intro r hr
      obtain ⟨l, _, rfl⟩ := List.mem_map.1 hr
      simp)) v0
  rw [hv0] at hinf
  have hnz : names.map (fun l => X l z) = ev := by
    rw [← hv0]
    exact List.map_congr_left hb
  refine ⟨(setDiff net.top names).map (fun l => X l z), ?_, ⟨fun l => X l z, hnz, rfl⟩, ?_⟩
  · unfold GNet.map
    rw [if_neg (by simp), hinf]
  · intro v v' h1 h2 h3
    have hvz : ∀ l ∈ net.top, v l = X l z := by
      intro l hl
      by_cases hln : l ∈ names
      · exact List.map_inj_left.1 (h1.trans hnz.symm) l hln
      · exact List.map_inj_left.1 h2 l (((hsd _ _).2 l).2 ⟨hl, hln⟩)
    have hvy := fun l hl => (drawsOf_values hw hX hpos v' l hl).symm
    have hy : ∀ b ∈ names, X b (drawsOf net v') = X b z := by
      intro b hb
      rw [← hvy b (hn b hb)]
      exact List.map_inj_left.1 (h3.trans hnz.symm) b hb
    have hsum := draws_larger hw hX hn hz hy
    rw [logDensity_draws hw hX hpos v z hvz, logDensity_draws hw hX hpos v' _ hvy, hsum]
    have hnn : ∀ k ∈ Finset.range net.top.length, 0 ≤ (drawsOf net v' k - z k) ^ 2 :=
      fun k _ => sq_nonneg _
    constructor
    · have := Finset.sum_nonneg hnn
      linarith
    · intro hne
      have : 0 < ∑ k ∈ Finset.range net.top.length, (drawsOf net v' k - z k) ^ 2 := by
        refine lt_of_le_of_ne (Finset.sum_nonneg hnn) (fun h0 => hne ?_)
        have h4 := (Finset.sum_eq_zero_iff_of_nonneg hnn).1 h0.symm
        apply List.map_congr_left
        intro l hl
        have hlt := (((hsd _ _).2 l).1 hl).1
        have ha := follows_affine hw hX (net.pos l + 1) _ l (by omega) (top_pos hlt)
        rw [hvy l hlt, congrFun ha z, congrFun ha (drawsOf net v')]
        unfold affine
        congr 1
        apply Finset.sum_congr rfl
        intro k hk
        rw [sub_eq_zero.1 (pow_eq_zero_iff (two_ne_zero)|>.1 (h4 k hk))]
      linarith

/-- C92 for networks in which distinct parents of a node are uncorrelated.  Missing: correlated
parents, see `C92_refuted`. -/
theorem C92_partial (hw : NetWf net) (hX : Follows net X) (hE : Expectation net.top.length dom E)
    (hu : UncorrelatedParents E net X) (hpos : ∀ l ∈ net.top, 0 < (net.cpd l).variance)
    (hsd : IsSetDiff setDiff) {names : List L} (hd : names.Nodup) (hn : ∀ l ∈ names, l ∈ net.top)
    (hp : ∀ a : List (List ℝ), a.length = names.length → (∀ r ∈ a, r.length = names.length) →
      PinvAt pinv names.length a) {ev : List ℝ} (hev : ev.length = names.length) :
    ∃ m, net.map setDiff pinv true (some net.top) ev names = .ok m ∧
      (∃ v, names.map v = ev ∧ (setDiff net.top names).map v = m) ∧
      IsMode net (setDiff net.top names) names ev m :=
  C92_variances hw hX hE ((crossTerm_iff hw hX hE).1 (fun _ hl => crossTerm_zero hw hu hl)) hpos hsd hd
    hn hp hev

/-- C92 for networks in which every node has at most one parent; nothing is assumed about
correlations. -/
theorem C92_one_parent_partial (hw : NetWf net)
    (h1 : ∀ l ∈ net.top, (net.cpd l).evidence.length ≤ 1)
    (hpos : ∀ l ∈ net.top, 0 < (net.cpd l).variance)
    (hsd : IsSetDiff setDiff) {names : List L} (hd : names.Nodup) (hn : ∀ l ∈ names, l ∈ net.top)
    (hp : ∀ a : List (List ℝ), a.length = names.length → (∀ r ∈ a, r.length = names.length) →
      PinvAt pinv names.length a) {ev : List ℝ} (hev : ev.length = names.length) :
    ∃ m, net.map setDiff pinv true (some net.top) ev names = .ok m ∧
      (∃ v, names.map v = ev ∧ (setDiff net.top names).map v = m) ∧
      IsMode net (setDiff net.top names) names ev m := by
  obtain ⟨X, hX⟩ := follows_exists hw
  refine C92_partial hw hX (normal_expectation _) ?_ hpos hsd hd hn hp hev
  intro l hl p hp q hq hpq
  have h := h1 l hl
  match he : (net.cpd l).evidence with
  | [] => rw [he] at hp; simp at hp
  | [a] =>
    rw [he] at hp hq
    exact absurd ((List.mem_singleton.1 hp).trans (List.mem_singleton.1 hq).symm) hpq
  | a :: b :: r => rw [he] at h; simp at h

end mode

/-- C92 is false: in the network `A → B`, `A → C`, `B → C` with unit coefficients and variances,
`maximum_a_posteriori` given `C = 12` returns 6 and 9, and 4 and 6 have a larger density. -/
theorem C92_refuted : ∃ (setDiff : List ℕ → List ℕ → List ℕ) (pinv : List (List ℝ) → List (List ℝ)),
    NetWf (Ex.fan : GNet ℕ ℝ) ∧ (∀ l ∈ (Ex.fan : GNet ℕ ℝ).top, 0 < ((Ex.fan : GNet ℕ ℝ).cpd l).variance) ∧
    IsSetDiff setDiff ∧
    (∀ a, a.length = 1 → (∀ r ∈ a, r.length = 1) → PinvAt pinv 1 a) ∧
    setDiff (Ex.fan : GNet ℕ ℝ).top [2] = [0, 1] ∧
    (Ex.fan : GNet ℕ ℝ).map setDiff pinv true (some (Ex.fan : GNet ℕ ℝ).top) [12] [2] = .ok [6, 9] ∧
    logDensity (Ex.fan : GNet ℕ ℝ) (fun l => [6, 9, 12].getD l 0) <
      logDensity (Ex.fan : GNet ℕ ℝ) (fun l => [4, 6, 12].getD l 0) ∧
    ¬ IsMode (Ex.fan : GNet ℕ ℝ) [0, 1] [2] [12] [6, 9] := by
  have hlt : logDensity (Ex.fan : GNet ℕ ℝ) (fun l => [6, 9, 12].getD l 0) <
      logDensity (Ex.fan : GNet ℕ ℝ) (fun l => [4, 6, 12].getD l 0) := by
    unfold logDensity
    simp only [Ex.fan, List.map_cons, List.map_nil, List.sum_cons, List.sum_nil]
    simp only [log_normal _ _ (zero_lt_one' ℝ), reduceIte, OfNat.ofNat_ne_zero, OfNat.ofNat_ne_one, one_ne_zero]
    simp [linear]
    norm_num
    linarith
  refine ⟨Ex.diff, Ex.inv1, Ex.fan_wf, ?_, Ex.diff_spec, Ex.inv1_spec, by decide, ?_, hlt, ?_⟩
  · intro l hl
    simp only [Ex.fan, List.mem_cons, List.not_mem_nil, or_false] at hl
    rcases hl with rfl | rfl | rfl <;> simp [Ex.fan]
  · obtain ⟨mu, hmu, heq⟩ := muVec_ok (Ex.fan_wf (K := ℝ))
    obtain ⟨s, hs, hsym, hd, hc⟩ := sigmaMat_ok (Ex.fan_wf (K := ℝ))
    have m0 := heq 0 0 rfl
    have m1 := heq 1 1 rfl
    have m2 := heq 2 2 rfl
    have d0 := hd 0 0 rfl
    have d1 := hd 1 1 rfl
    have d2 := hd 2 2 rfl
    have c01 := hc 0 1 1 (by norm_num) rfl
    have c02 := hc 0 2 2 (by norm_num) rfl
    have c12 := hc 1 2 2 (by norm_num) rfl
    have c10 := hsym 1 0
    have p0 : (Ex.fan : GNet ℕ ℝ).pos 0 = 0 := by decide
    have p1 : (Ex.fan : GNet ℕ ℝ).pos 1 = 1 := by decide
    have p2 : (Ex.fan : GNet ℕ ℝ).pos 2 = 2 := by decide
    simp [GNet.diagVal, GNet.covVal, GNet.links, GNet.pos, Ex.fan, linear] at m0 m1 m2 d0 d1 d2 c01 c02 c12
    have hb : (Ex.fan : GNet ℕ ℝ).block s [2] = [[4]] := by
      simp only [GNet.block, List.map_cons, List.map_nil, p2, d2, d1, d0]
      norm_num
    unfold GNet.map
    rw [if_neg (by simp), inference_eq Ex.fan_wf hmu hs Ex.diff_spec (names := [2]) (by simp [Ex.fan])
      (by rw [hb]; rfl) (by rw [hb]; intro r hr; simp [Ex.inv1] at hr; subst hr; rfl) rfl]
    have hdf : Ex.diff (Ex.fan : GNet ℕ ℝ).top [2] = [0, 1] := by decide
    rw [hdf, hb]
    simp [p0, p1, p2, Ex.inv1, entry, m0, m1, m2, c02, c12, c10, c01, d0, d1]
    norm_num
  · intro h
    have := (h (fun l => [6, 9, 12].getD l 0) (fun l => [4, 6, 12].getD l 0) (by simp) (by simp) (by simp)).1
    exact absurd hlt (not_lt.2 this)

/-- C92 in the network `A → B` with `B = 2 + 3 A + noise`: given `B = 5`, the most probable value
of `A` is returned. -/
example : ∃ m, (Ex.chain : GNet ℕ ℝ).map Ex.diff Ex.inv1 true (some [0, 1]) [5] [1] = .ok m ∧
    (∃ v, [1].map v = [5] ∧ [0].map v = m) ∧ IsMode (Ex.chain : GNet ℕ ℝ) [0] [1] [5] m :=
  C92_one_parent_partial (net := Ex.chain) Ex.chain_wf
    (by
      intro l hl
      simp only [Ex.chain, List.mem_cons, List.not_mem_nil, or_false] at hl
      rcases hl with rfl | rfl <;> simp [Ex.chain])
    (by
      intro l hl
      simp only [Ex.chain, List.mem_cons, List.not_mem_nil, or_false] at hl
      rcases hl with rfl | rfl <;> simp [Ex.chain])
    Ex.diff_spec (by simp) (by simp [Ex.chain]) Ex.inv1_spec rfl

end Verif
