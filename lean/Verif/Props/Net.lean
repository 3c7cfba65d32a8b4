/- Properties of the Bayesian networks: C34 (means), C35 (covariances), C36 (conditioning),
C57 (posterior), C37 (sampling with evidence), C38 (white and black lists). -/
import Verif.Lemmas.NetPost
import Verif.Lemmas.Gaussian
import Verif.Model.PySet

set_option linter.unusedSectionVars false

namespace Verif

open Spec

section means

variable {L : Type} [DecidableEq L] {net : GNet L ℝ} {X : L → (ℕ → ℝ) → ℝ}
  {dom : ((ℕ → ℝ) → ℝ) → Prop} {E : ((ℕ → ℝ) → ℝ) → ℝ}

/-- C34: the requested means are the expectations of the variables, in the order of the request. -/
theorem C34_means (hw : NetWf net) (hX : Follows net X) (hE : Expectation net.top.length dom E)
    {names : List L} (hne : names ≠ []) (h : ∀ l ∈ names, l ∈ net.top) :
    net.getMu (some names) = .ok (names.map (fun l => E (X l))) := by
  obtain ⟨mu, hmu, heq⟩ := muVec_ok hw
  rw [getMu_some hmu hne h]
  congr 1
  apply List.map_congr_left
  intro l hl
  exact mean_eq hw hX hE heq (h l hl)

/-- C34: `None` and an empty request return all means in topological order. -/
theorem C34_all (hw : NetWf net) (hX : Follows net X) (hE : Expectation net.top.length dom E)
    {o : Option (List L)} (ho : o = none ∨ o = some []) :
    net.getMu o = .ok (net.top.map (fun l => E (X l))) := by
  obtain ⟨mu, hmu, heq⟩ := muVec_ok hw
  rw [getMu_all hw hmu ho]
  congr 1
  apply List.map_congr_left
  intro l hl
  exact mean_eq hw hX hE heq hl

end means

section order

variable {L K : Type} [DecidableEq L] [Field K] [LinearOrder K]

/-- C34: the answer does not depend on which topological order the library returns. -/
theorem C34_order {net net' : GNet L K} (hw : NetWf net) (hw' : NetWf net')
    (hc : net.cpd = net'.cpd) (hm : ∀ l, l ∈ net.top ↔ l ∈ net'.top) {names : List L}
    (hne : names ≠ []) (h : ∀ l ∈ names, l ∈ net.top) :
    net.getMu (some names) = net'.getMu (some names) := by
  obtain ⟨mu, hmu, heq⟩ := muVec_ok hw
  obtain ⟨mu', hmu', heq'⟩ := muVec_ok hw'
  rw [getMu_some hmu hne h, getMu_some hmu' hne (fun l hl => (hm l).1 (h l hl))]
  congr 1
  apply List.map_congr_left
  intro l hl
  refine linear_unique hw (x := fun l => mu (net.pos l)) (y := fun l => mu' (net'.pos l))
    (fun c v => linear c v) (fun c u v h => linear_congr c h) ?_ ?_ l (h l hl)
  · intro l hl
    exact heq _ l (top_pos hl)
  · intro l hl
    rw [hc]
    exact heq' _ l (top_pos ((hm l).1 hl))

/-- C34: an unknown name raises a `ValueError`. -/
theorem C34_unknown {net : GNet L K} (hw : NetWf net) {names : List L} {l : L} (hl : l ∈ names)
    (h : l ∉ net.top) : net.getMu (some names) = .error .valueError := by
  obtain ⟨mu, hmu, _⟩ := muVec_ok hw
  have hne : names ≠ [] := by rintro rfl; simp at hl
  unfold GNet.getMu
  rw [hmu]
  simp only [truthy_append hne, if_true, Option.getD_some]
  rw [positions_error hl h]

end order

section sigma

variable {L K : Type} [DecidableEq L] [Field K] [LinearOrder K] [IsStrictOrderedRing K]

/-- C35: `get_sigma` never fails for known names, its answer is symmetric and square. -/
theorem C35_symmetric {net : GNet L K} (hw : NetWf net) : ∃ S : L → L → K,
    (∀ l l', S l l' = S l' l) ∧
    (∀ o, o = none ∨ o = some [] → net.getSigma o = .ok (gramRows S net.top net.top)) ∧
    ∀ names : List L, names ≠ [] → (∀ l ∈ names, l ∈ net.top) →
      net.getSigma (some names) = .ok (gramRows S names names) := by
  obtain ⟨s, hs, hsym, _⟩ := sigmaMat_ok hw
  exact ⟨fun l l' => s (net.pos l) (net.pos l'), fun l l' => hsym _ _,
    fun o ho => getSigma_all hw hs ho, fun names hne h => getSigma_some hs hne h⟩

end sigma

section cov

variable {L : Type} [DecidableEq L] {net : GNet L ℝ} {X : L → (ℕ → ℝ) → ℝ}
  {dom : ((ℕ → ℝ) → ℝ) → Prop} {E : ((ℕ → ℝ) → ℝ) → ℝ}

/-- C35, exactly when it holds: the returned matrices are the covariances if and only if at every
node the variances of the parents add up (no contribution of correlated parents). -/
theorem C35_exact (hw : NetWf net) (hX : Follows net X) (hE : Expectation net.top.length dom E) :
    (∀ names : List L, names ≠ [] → (∀ l ∈ names, l ∈ net.top) →
      net.getSigma (some names) = .ok (gramRows (fun l l' => Cov E (X l) (X l')) names names)) ↔
    VarianceAdds E net X := by
  obtain ⟨s, hs, hsym, hd, hc⟩ := sigmaMat_ok hw
  rw [← crossTerm_iff hw hX hE, ← sigma_iff hw hX hE hsym hd hc]
  constructor
  · intro h l hl l' hl'
    have h1 := h [l, l'] (by simp) (by simp [hl, hl'])
    rw [getSigma_some hs (by simp) (by simp [hl, hl'])] at h1
    simp only [gramRows, List.map_cons, List.map_nil, Except.ok.injEq, List.cons.injEq,
      and_true] at h1
    exact h1.1.2
  · intro h names hne hn
    rw [getSigma_some hs hne hn]
    congr 1
    apply List.map_congr_left
    intro l hl
    apply List.map_congr_left
    intro l' hl'
    exact h l (hn l hl) l' (hn l' hl')

/-- C35 for networks in which distinct parents of a node are uncorrelated (for example trees and
forests): the returned matrices are the covariances.  Missing: correlated parents, for which the
variances are wrong (`C35_refuted`). -/
theorem C35_partial (hw : NetWf net) (hX : Follows net X) (hE : Expectation net.top.length dom E)
    (hu : UncorrelatedParents E net X) {names : List L} (hne : names ≠ [])
    (h : ∀ l ∈ names, l ∈ net.top) :
    net.getSigma (some names) = .ok (gramRows (fun l l' => Cov E (X l) (X l')) names names) :=
  (C35_exact hw hX hE).2 ((crossTerm_iff hw hX hE).1 (fun _ hl => crossTerm_zero hw hu hl))
    names hne h

end cov

section conditioning

variable {L K : Type} [DecidableEq L] [Field K] [LinearOrder K] [IsStrictOrderedRing K]
  {net : GNet L K} {setDiff : List L → List L → List L} {pinv : List (List K) → List (List K)}

theorem gram_symm {S : L → L → K} (h : ∀ l l', S l l' = S l' l) (ls ls' : List L) :
    (gram S ls ls').transpose = gram S ls' ls := by
  funext i j
  exact h _ _

/-- C36: the Gaussian conditioning formula, for the means and covariances that `get_mu` and
`get_sigma` report.  The pseudo-inverse is the inverse whenever that exists, and the covariance is
symmetric. -/
theorem C36_formula (hw : NetWf net) (hsd : IsSetDiff setDiff) {names : List L}
    (hn : ∀ l ∈ names, l ∈ net.top)
    (hp : ∀ a : List (List K), a.length = names.length → (∀ r ∈ a, r.length = names.length) →
      PinvAt pinv names.length a) :
    ∃ (m : L → K) (S : L → L → K) (P : Matrix (Fin names.length) (Fin names.length) K)
      (cov : Matrix (Fin (setDiff net.top names).length) (Fin (setDiff net.top names).length) K),
      (∀ ns : List L, ns ≠ [] → (∀ l ∈ ns, l ∈ net.top) →
        net.getMu (some ns) = .ok (ns.map m) ∧ net.getSigma (some ns) = .ok (gramRows S ns ns)) ∧
      IsPinv (gram S names names) P ∧
      (IsUnit (gram S names names).det → P = (gram S names names)⁻¹) ∧
      cov = gram S (setDiff net.top names) (setDiff net.top names) -
        gram S (setDiff net.top names) names * P * gram S names (setDiff net.top names) ∧
      cov.transpose = cov ∧
      ∀ ev : List K, ev.length = names.length →
        net.inference setDiff pinv (some net.top) ev names = .ok
          (List.ofFn (fun i => m (setDiff net.top names)[i] +
            (gram S (setDiff net.top names) names * P).mulVec
              (fun b => ev.getD b 0 - m names[b]) i),
           List.ofFn (fun i => List.ofFn (fun j => cov i j))) := by
  obtain ⟨mu, hmu, heq⟩ := muVec_ok hw
  obtain ⟨s, hs, hsym, hd, hc⟩ := sigmaMat_ok hw
  have hp' := hp (net.block s names) (by simp [GNet.block]) (by
    intro r hr
    obtain ⟨l, _, rfl⟩ := List.mem_map.1 hr
    simp)
  have hb : mat names.length (net.block s names) =
      gram (fun l l' => s (net.pos l) (net.pos l')) names names := by
    funext i j
    exact entry_grid _ _ _ (List.getElem?_eq_getElem i.2) (List.getElem?_eq_getElem j.2)
  have hP := hp'.inverse
  rw [hb] at hP
  have hsy : ∀ l l' : L, s (net.pos l) (net.pos l') = s (net.pos l') (net.pos l) :=
    fun l l' => hsym _ _
  refine ⟨fun l => mu (net.pos l), fun l l' => s (net.pos l) (net.pos l'),
    mat names.length (pinv (net.block s names)), _, ?_, hP, ?_, rfl, ?_, ?_⟩
  · intro ns hne hns
    exact ⟨getMu_some hmu hne hns, getSigma_some hs hne hns⟩
  · intro hu
    obtain ⟨a, ha⟩ : ∃ a, a = gram (fun l l' => s (net.pos l) (net.pos l')) names names := ⟨_, rfl⟩
    rw [← ha] at hu hP ⊢
    have h1 := congrArg (fun x => a⁻¹ * x * a⁻¹) hP.one
    simp only [Matrix.mul_assoc, Matrix.mul_nonsing_inv _ hu, Matrix.mul_one] at h1
    rw [← Matrix.mul_assoc, Matrix.nonsing_inv_mul _ hu, Matrix.one_mul] at h1
    exact h1
  · rw [Matrix.transpose_sub, gram_symm hsy, Matrix.transpose_mul, Matrix.transpose_mul,
      gram_symm hsy, gram_symm hsy, pinv_symm (gram_symm hsy names names) hP, Matrix.mul_assoc]
  · intro ev hev
    rw [inference_mat hw hmu hs hsd hn hp'.rows hp'.cols rfl hev]
    simp only [Matrix.mulVec_mulVec, Matrix.mul_assoc]

/-- C36: with the evidence equal to the prior means, the posterior means are the prior means. -/
theorem C36_prior (hw : NetWf net) (hsd : IsSetDiff setDiff) {names : List L} (hne : names ≠ [])
    (hn : ∀ l ∈ names, l ∈ net.top) (hfree : setDiff net.top names ≠ [])
    (hp : ∀ a : List (List K), a.length = names.length → (∀ r ∈ a, r.length = names.length) →
      PinvAt pinv names.length a) {ev : List K} (hev : net.getMu (some names) = .ok ev) :
    ∃ mean cov, net.getMu (some (setDiff net.top names)) = .ok mean ∧
      net.inference setDiff pinv (some net.top) ev names = .ok (mean, cov) := by
  obtain ⟨m, S, P, cov, h1, _, _, _, _, h2⟩ := C36_formula hw hsd hn hp
  have hm := (h1 names hne hn).1
  rw [hev, Except.ok.injEq] at hm
  have hf : ∀ l ∈ setDiff net.top names, l ∈ net.top := fun l hl => (((hsd _ _).2 l).1 hl).1
  refine ⟨(setDiff net.top names).map m, List.ofFn (fun i => List.ofFn (fun j => cov i j)),
    (h1 _ hfree hf).1, ?_⟩
  rw [h2 ev (by rw [hm]; simp), map_ofFn]
  congr 3
  funext i
  have : (fun b : Fin names.length => ev.getD b 0 - m names[b]) = 0 := by
    funext b
    rw [hm, List.getD_eq_getElem?_getD, List.getElem?_map, List.getElem?_eq_getElem b.2]
    exact sub_self _
  rw [this, Matrix.mulVec_zero]
  exact add_zero _

/-- C36: a wrong number of evidence values is a `ValueError`, except that a single value stands for
all the measured variables. -/
theorem C36_length (hw : NetWf net) (hsd : IsSetDiff setDiff) {names : List L} (hne : names ≠ [])
    (hn : ∀ l ∈ names, l ∈ net.top) {ev : List K} (hl : ev.length ≠ names.length) :
    net.inference setDiff pinv (some net.top) ev names = match ev with
      | [e] => net.inference setDiff pinv (some net.top) (List.replicate names.length e) names
      | _ => .error .valueError := by
  obtain ⟨mu, hmu, heq⟩ := muVec_ok hw
  obtain ⟨s, hs, hsym, hd, hc⟩ := sigmaMat_ok hw
  have hvs : ∀ l ∈ setDiff net.top names ++ names, l ∈ net.top := by
    intro l hl
    rcases List.mem_append.1 hl with h | h
    · exact (((hsd _ _).2 l).1 h).1
    · exact hn l h
  have hvne : setDiff net.top names ++ names ≠ [] := by simp [hne]
  have hdrop : (((setDiff net.top names ++ names).map (fun l => mu (net.pos l))).drop
      (setDiff net.top names).length) = names.map (fun l => mu (net.pos l)) := by
    rw [List.map_append, List.drop_left' (by simp)]
  have key : ∀ e e' : List K, evidenceDiff e (names.map (fun l => mu (net.pos l))) =
      evidenceDiff e' (names.map (fun l => mu (net.pos l))) →
      net.inference setDiff pinv (some net.top) e names =
        net.inference setDiff pinv (some net.top) e' names := by
    intro e e' he
    unfold GNet.inference
    simp only [getMu_some hmu hvne hvs, getSigma_some hs hvne hvs, hdrop, he]
  have err : ∀ e : List K, evidenceDiff e (names.map (fun l => mu (net.pos l))) =
      .error .valueError → net.inference setDiff pinv (some net.top) e names =
        .error .valueError := by
    intro e he
    unfold GNet.inference
    simp only [getMu_some hmu hvne hvs, getSigma_some hs hvne hvs, hdrop, he]
  match ev, hl with
  | [], hl =>
    apply err
    unfold evidenceDiff
    rw [if_neg (by simpa using hl)]
  | [e], hl =>
    apply key
    unfold evidenceDiff
    rw [if_neg (by simpa using hl), if_pos (by simp)]
    show Except.ok _ = Except.ok _
    congr 1
    apply List.ext_getElem
    · simp
    · intro i h1 h2
      simp
  | e :: e' :: es, hl =>
    apply err
    unfold evidenceDiff
    rw [if_neg (by simpa using hl)]

end conditioning

section objects

variable {S L K Ω : Type} [DecidableEq L] [Field K] [LinearOrder K] {lib : NetLib S L K Ω}
  {setDiff : List L → List L → List L} {pinv : List (List K) → List (List K)}

/-- C36: before `learn`, `maximum_a_posteriori` fails its assertion (and `inference` raises a
`TypeError`). -/
theorem C36_unfitted (kind : BnType) (vars : List L) (white black : Option (List (L × L)))
    (ev : List K) (names : List L) :
    (BNet.new lib kind vars white black).map lib setDiff pinv ev names = .error .assertion ∧
    (BNet.new lib kind vars white black).inference lib setDiff pinv ev names = .error .typeError :=
  ⟨rfl, rfl⟩

/-- C36: after `learn`, conditioning uses the topological order of the learned network, and
`maximum_a_posteriori` returns exactly the mean that `inference` returns (or the same error). -/
theorem C36_map {b b' : BNet S L K} {g : Gen (List K)} {numFolds : ℤ} {ω : Ω}
    (hk : b.kind = .gaussian) (hl : b.learn lib g numFolds ω = .ok b') (ev : List K)
    (names : List L) :
    b'.inference lib setDiff pinv ev names =
      (b'.gnet lib).inference setDiff pinv (some (b'.gnet lib).top) ev names ∧
    (∀ mean cov, b'.inference lib setDiff pinv ev names = .ok (mean, cov) →
      b'.map lib setDiff pinv ev names = .ok mean) ∧
    (∀ err, b'.inference lib setDiff pinv ev names = .error err →
      b'.map lib setDiff pinv ev names = .error err) := by
  have hb : b'.fitted = true ∧ b'.topOrder = some (lib.topSort b'.pm) := by
    unfold BNet.learn at hl
    rw [hk] at hl
    split at hl
    · cases hl
    · split at hl
      · cases hl
      · split at hl
        · cases hl
        · cases hl
          exact ⟨rfl, rfl⟩
  refine ⟨?_, ?_, ?_⟩
  · unfold BNet.inference
    rw [hb.2]
    rfl
  · intro mean cov h
    unfold BNet.map GNet.map
    unfold BNet.inference at h
    rw [h, hb.1]
    rfl
  · intro err h
    unfold BNet.map GNet.map
    unfold BNet.inference at h
    rw [h, hb.1]
    rfl

/-- C38: the learned structure of each of the three networks contains the white-listed arcs and no
black-listed arc. -/
theorem C38_lists (hh : Honours lib) {b b' : BNet S L K} {g : Gen (List K)} {numFolds : ℤ} {ω : Ω}
    (hl : b.learn lib g numFolds ω = .ok b') :
    (∀ w, b.white = some w → ∀ a ∈ w, a ∈ b'.printStructure lib) ∧
    (∀ w, b.black = some w → ∀ a ∈ w, a ∉ b'.printStructure lib) := by
  have key : ∀ (args : HcArgs S L) data pm pm' , lib.hc data args ω = .ok pm →
      lib.fit pm data = .ok pm' → (∀ a ∈ args.whitelist, a ∈ lib.arcs pm') ∧
        ∀ a ∈ args.blacklist, a ∉ lib.arcs pm' := by
    intro args data pm pm' h1 h2
    rw [hh.fit _ _ _ h2]
    exact ⟨hh.white _ _ _ _ h1, hh.black _ _ _ _ h1⟩
  have hargs : ∀ (kind : BnType) (e : S) (white black : Option (List (L × L))),
      (∀ w, white = some w → (hcArgs kind e numFolds white black).whitelist = w) ∧
      (∀ w, black = some w → (hcArgs kind e numFolds white black).blacklist = w) := by
    intro kind e white black
    unfold hcArgs
    cases kind <;> rcases white with _ | (_ | ⟨w, ws⟩) <;> rcases black with _ | (_ | ⟨k, ks⟩) <;>
      simp [truthy, hcBase]
  unfold BNet.learn at hl
  split at hl
  · cases hl
  · rename_i data _
    split at hl
    · cases hl
    · rename_i pm hpm
      split at hl
      · cases hl
      · rename_i pm' hpm'
        have hk := key _ _ _ _ hpm hpm'
        have ha := hargs b.kind (lib.new b.kind b.vars) b.white b.black
        have hpm'' : b'.pm = pm' := by
          cases hkd : b.kind <;> rw [hkd] at hl <;> cases hl <;> rfl
        unfold BNet.printStructure
        rw [hpm'']
        constructor
        · intro w hw
          rw [ha.1 w hw] at hk
          exact hk.1
        · intro w hw
          rw [ha.2 w hw] at hk
          exact hk.2

/-- C38: an empty list and `None` mean the same: no restriction. -/
theorem C38_empty (b : BNet S L K) (g : Gen (List K)) (numFolds : ℤ) (ω : Ω) :
    let proj := fun r : Except PyErr (BNet S L K) => r.map (fun b => (b.pm, b.topOrder, b.fitted))
    proj ({ b with white := some [] }.learn lib g numFolds ω) =
        proj ({ b with white := none }.learn lib g numFolds ω) ∧
      proj ({ b with black := some [] }.learn lib g numFolds ω) =
        proj ({ b with black := none }.learn lib g numFolds ω) ∧
      (hcArgs b.kind (lib.new b.kind b.vars) numFolds none none : HcArgs S L).whitelist = [] ∧
      (hcArgs b.kind (lib.new b.kind b.vars) numFolds none none : HcArgs S L).blacklist = [] := by
  have hargs : ∀ (kind : BnType) (e : S) (o : Option (List (L × L))),
      hcArgs kind e numFolds (some []) o = hcArgs kind e numFolds none o ∧
      hcArgs kind e numFolds o (some []) = hcArgs kind e numFolds o none ∧
      (hcArgs kind e numFolds none none : HcArgs S L).whitelist = [] ∧
      (hcArgs kind e numFolds none none : HcArgs S L).blacklist = [] := by
    intro kind e o
    unfold hcArgs
    cases kind <;> rcases o with _ | (_ | ⟨w, ws⟩) <;> simp [truthy, hcBase]
  refine ⟨?_, ?_, (hargs _ _ none).2.2⟩
  · unfold BNet.learn
    simp only [(hargs _ _ _).1]
    cases toFrame b.vars g with
    | error err => rfl
    | ok data =>
      dsimp only
      cases lib.hc data (hcArgs b.kind (lib.new b.kind b.vars) numFolds none b.black) ω with
      | error err => rfl
      | ok pm =>
        dsimp only
        cases lib.fit pm data with
        | error err => rfl
        | ok pm' => cases b.kind <;> rfl
  · unfold BNet.learn
    simp only [(hargs _ _ _).2.1]
    cases toFrame b.vars g with
    | error err => rfl
    | ok data =>
      dsimp only
      cases lib.hc data (hcArgs b.kind (lib.new b.kind b.vars) numFolds b.white none) ω with
      | error err => rfl
      | ok pm =>
        dsimp only
        cases lib.fit pm data with
        | error err => rfl
        | ok pm' => cases b.kind <;> rfl

end objects

section posterior

variable {L : Type} [DecidableEq L] {net : GNet L ℝ} {X : L → (ℕ → ℝ) → ℝ}
  {dom : ((ℕ → ℝ) → ℝ) → Prop} {E : ((ℕ → ℝ) → ℝ) → ℝ} {setDiff : List L → List L → List L}
  {pinv : List (List ℝ) → List (List ℝ)}

/-- C57 for networks in which distinct parents of a node are uncorrelated: `inference` returns the
conditional distribution of the remaining variables given the evidence, with a positive semidefinite
covariance.  Missing: correlated parents, see `C57_refuted`. -/
theorem C57_partial (hw : NetWf net) (hX : Follows net X) (hE : Expectation net.top.length dom E)
    (hu : UncorrelatedParents E net X) (hsd : IsSetDiff setDiff) {names : List L}
    (hn : ∀ l ∈ names, l ∈ net.top)
    (hp : ∀ a : List (List ℝ), a.length = names.length → (∀ r ∈ a, r.length = names.length) →
      PinvAt pinv names.length a) :
    ∃ mean cov, (∀ ev, ev.length = names.length →
        net.inference setDiff pinv (some net.top) ev names = .ok (mean ev, cov)) ∧
      IsConditional E X (setDiff net.top names) names mean cov ∧
      ∀ x : ℕ → ℝ, 0 ≤ ∑ i ∈ Finset.range (setDiff net.top names).length,
        ∑ j ∈ Finset.range (setDiff net.top names).length, x i * x j * entry cov i j :=
  inference_conditional hw hX hE
    ((crossTerm_iff hw hX hE).1 (fun _ hl => crossTerm_zero hw hu hl)) hsd hn
    (hp _ (by simp [gramRows]) (by
      intro r hr
      obtain ⟨l, _, rfl⟩ := List.mem_map.1 hr
      simp))

end posterior

end Verif
