/- Means and covariances of the random variables described by a linear Gaussian network. -/
import Verif.Lemmas.Net
import Verif.Lemmas.Moments

set_option linter.unusedSectionVars false

namespace Verif

open Spec

theorem zipWith_sum {α β K : Type} [AddCommMonoid K] (f : α → β → K) (d : α) :
    ∀ (bs : List α) (es : List β), bs.length = es.length →
      (List.zipWith f bs es).sum = ∑ k : Fin es.length, f (bs.getD k d) es[k]
  | [], [], _ => by simp
  | b :: bs, e :: es, h => by
    have ih := zipWith_sum f d bs es (by simpa using h)
    rw [List.zipWith_cons_cons, List.sum_cons, ih]
    show _ = ∑ k : Fin (es.length + 1), f ((b :: bs).getD k d) (e :: es)[k]
    rw [Fin.sum_univ_succ]
    rfl
  | [], _ :: _, h => by simp at h
  | _ :: _, [], h => by simp at h

section

variable {L K : Type} [DecidableEq L] [Field K] [LinearOrder K] {net : GNet L K}

/-- The coefficient of the `k`-th parent. -/
def GNet.coef (net : GNet L K) (l : L) (k : ℕ) : K := (net.cpd l).beta.getD (k + 1) 0

theorem getD_drop_one (b : List K) (k : ℕ) : (b.drop 1).getD k 0 = b.getD (k + 1) 0 := by
  rw [List.getD_eq_getElem?_getD, List.getD_eq_getElem?_getD, List.getElem?_drop, add_comm]

theorem linear_sum (hw : NetWf net) {l : L} (hl : l ∈ net.top) (v : L → K) :
    linear (net.cpd l) v = (net.cpd l).beta.headD 0 +
      ∑ k : Fin (net.cpd l).evidence.length, net.coef l k * v (net.cpd l).evidence[k] := by
  unfold linear
  rw [zipWith_sum _ 0 _ _ (by have := hw.beta l hl; rw [List.length_drop]; omega)]
  simp only [getD_drop_one]
  rfl

theorem links_fin (hw : NetWf net) {l : L} (hl : l ∈ net.top) (g : K → ℕ → K) :
    ((net.links l).map (fun t => g t.1 t.2)).sum =
      ∑ k : Fin (net.cpd l).evidence.length, g (net.coef l k) (net.pos (net.cpd l).evidence[k]) := by
  rw [links_sum, zipWith_sum _ 0 _ _ (by have := hw.beta l hl; rw [List.length_drop]; omega)]
  simp only [getD_drop_one]
  rfl

theorem parent_lt (hw : NetWf net) {i : ℕ} {l : L} (h : net.top[i]? = some l)
    (k : Fin (net.cpd l).evidence.length) :
    (net.cpd l).evidence[k] ∈ net.top ∧ net.pos (net.cpd l).evidence[k] < i :=
  mem_of_order hw h (List.getElem_mem k.2)

end

section real

variable {L : Type} [DecidableEq L] {net : GNet L ℝ} {X : L → (ℕ → ℝ) → ℝ}
  {dom : ((ℕ → ℝ) → ℝ) → Prop} {E : ((ℕ → ℝ) → ℝ) → ℝ}

/-- All draws zero except the `k`-th. -/
def unit (k : ℕ) : ℕ → ℝ := fun j => if j = k then 1 else 0

/-- How much node `l` reacts to draw `k`. -/
def load (X : L → (ℕ → ℝ) → ℝ) (l : L) (k : ℕ) : ℝ := X l (unit k) - X l (fun _ => 0)

/-- The equation of the loads. -/
theorem load_eq (hw : NetWf net) (hX : Follows net X) {i : ℕ} {l : L} (h : net.top[i]? = some l)
    (k : ℕ) : load X l k = (∑ j : Fin (net.cpd l).evidence.length,
      net.coef l j * load X (net.cpd l).evidence[j] k) +
        (if k = i then Real.sqrt (net.cpd l).variance else 0) := by
  have hl := List.mem_of_getElem? h
  unfold load
  rw [hX i l h, hX i l h, linear_sum hw hl, linear_sum hw hl]
  simp only [mul_sub, Finset.sum_sub_distrib, unit]
  by_cases hki : k = i
  · rw [if_pos hki, if_pos hki.symm]; ring
  · rw [if_neg hki, if_neg (Ne.symm hki)]; ring

theorem load_zero (hw : NetWf net) (hX : Follows net X) {k : ℕ} :
    ∀ (n i : ℕ) (l : L), i < n → net.top[i]? = some l → i < k → load X l k = 0 := by
  intro n
  induction n with
  | zero => intro i l hi; omega
  | succ n ih =>
    intro i l hi h hik
    rw [load_eq hw hX h, if_neg (by omega), add_zero]
    apply Finset.sum_eq_zero
    intro j _
    obtain ⟨h1, h2⟩ := parent_lt hw h j
    rw [ih _ _ (by omega) (top_pos h1) (by omega), mul_zero]

/-- The node values are affine functions of the draws. -/
theorem follows_affine (hw : NetWf net) (hX : Follows net X) :
    ∀ (n i : ℕ) (l : L), i < n → net.top[i]? = some l →
      X l = affine net.top.length (X l (fun _ => 0)) (load X l) := by
  intro n
  induction n with
  | zero => intro i l hi; omega
  | succ n ih =>
    intro i l hi h
    have hl := List.mem_of_getElem? h
    have hin := (List.getElem?_eq_some_iff.1 h).1
    funext z
    rw [hX i l h z, linear_sum hw hl]
    have e : ∀ j : Fin (net.cpd l).evidence.length, X (net.cpd l).evidence[j] z =
        X (net.cpd l).evidence[j] (fun _ => 0) + ∑ k ∈ Finset.range net.top.length,
          z k * load X (net.cpd l).evidence[j] k := by
      intro j
      obtain ⟨h1, h2⟩ := parent_lt hw h j
      exact congrFun (ih _ _ (by omega) (top_pos h1)) z
    simp only [e]
    unfold affine
    conv_rhs => rw [hX i l h, linear_sum hw hl]
    have e2 : ∑ k ∈ Finset.range net.top.length, z k * load X l k =
        (∑ j : Fin (net.cpd l).evidence.length, net.coef l j *
          ∑ k ∈ Finset.range net.top.length, z k * load X (net.cpd l).evidence[j] k) +
        Real.sqrt (net.cpd l).variance * z i := by
      simp only [load_eq hw hX h, mul_add, Finset.sum_add_distrib]
      congr 1
      · simp only [Finset.mul_sum]
        rw [Finset.sum_comm]
        apply Finset.sum_congr rfl; intro j _
        apply Finset.sum_congr rfl; intro k _
        ring
      · rw [Finset.sum_eq_single i]
        · rw [if_pos rfl]; ring
        · intro k _ hk; rw [if_neg hk, mul_zero]
        · intro hk; exact absurd (Finset.mem_range.2 hin) hk
    rw [e2]
    simp only [mul_add, Finset.sum_add_distrib, mul_zero]
    ring

theorem follows_mean (hw : NetWf net) (hX : Follows net X) (hE : Expectation net.top.length dom E)
    {l : L} (hl : l ∈ net.top) : E (X l) = X l (fun _ => 0) := by
  have h := follows_affine hw hX (net.pos l + 1) _ l (by omega) (top_pos hl)
  rw [h, exp_affine hE, ← h]

theorem follows_cov (hw : NetWf net) (hX : Follows net X) (hE : Expectation net.top.length dom E)
    {l l' : L} (hl : l ∈ net.top) (hl' : l' ∈ net.top) :
    Cov E (X l) (X l') = ∑ k ∈ Finset.range net.top.length, load X l k * load X l' k := by
  have h := follows_affine hw hX (net.pos l + 1) _ l (by omega) (top_pos hl)
  have h' := follows_affine hw hX (net.pos l' + 1) _ l' (by omega) (top_pos hl')
  conv_lhs => rw [h, h', cov_affine hE]

theorem cov_symm (E : ((ℕ → ℝ) → ℝ) → ℝ) (f g : (ℕ → ℝ) → ℝ) : Cov E f g = Cov E g f := by
  unfold Cov
  congr 1
  funext z
  ring

/-- Covariance with a later node. -/
theorem follows_cov_lt (hw : NetWf net) (hX : Follows net X) (hE : Expectation net.top.length dom E)
    {i j : ℕ} {l l' : L} (h : net.top[i]? = some l) (h' : net.top[j]? = some l') (hij : i < j) :
    Cov E (X l) (X l') = ∑ k : Fin (net.cpd l').evidence.length,
      net.coef l' k * Cov E (X l) (X (net.cpd l').evidence[k]) := by
  have hl := List.mem_of_getElem? h
  have hl' := List.mem_of_getElem? h'
  have hjn := (List.getElem?_eq_some_iff.1 h').1
  rw [follows_cov hw hX hE hl hl']
  simp only [load_eq hw hX h', mul_add, Finset.sum_add_distrib]
  rw [Finset.sum_eq_single (s := Finset.range net.top.length) (a := j)
    (f := fun k => load X l k * if k = j then Real.sqrt (net.cpd l').variance else 0)]
  · rw [load_zero hw hX (i + 1) i l (by omega) h hij, zero_mul, add_zero]
    simp only [Finset.mul_sum]
    rw [Finset.sum_comm]
    apply Finset.sum_congr rfl; intro m _
    rw [follows_cov hw hX hE hl (parent_lt hw h' m).1, Finset.mul_sum]
    apply Finset.sum_congr rfl; intro k _
    ring
  · intro k _ hk; rw [if_neg hk, mul_zero]
  · intro hk; exact absurd (Finset.mem_range.2 hjn) hk

/-- Variance of a node. -/
theorem follows_var (hw : NetWf net) (hX : Follows net X) (hE : Expectation net.top.length dom E)
    {i : ℕ} {l : L} (h : net.top[i]? = some l) :
    Cov E (X l) (X l) = (net.cpd l).variance + ∑ k : Fin (net.cpd l).evidence.length,
      ∑ m : Fin (net.cpd l).evidence.length, net.coef l k * net.coef l m *
        Cov E (X (net.cpd l).evidence[k]) (X (net.cpd l).evidence[m]) := by
  have hl := List.mem_of_getElem? h
  have hin := (List.getElem?_eq_some_iff.1 h).1
  have hv := hw.variance l hl
  have hpar : ∀ k : Fin (net.cpd l).evidence.length, load X (net.cpd l).evidence[k] i = 0 := by
    intro k
    obtain ⟨h1, h2⟩ := parent_lt hw h k
    exact load_zero hw hX _ _ _ (Nat.lt_succ_self _) (top_pos h1) h2
  rw [follows_cov hw hX hE hl hl]
  have e : ∀ k, load X l k * load X l k =
      (∑ a : Fin (net.cpd l).evidence.length, net.coef l a * load X (net.cpd l).evidence[a] k) *
      (∑ a : Fin (net.cpd l).evidence.length, net.coef l a * load X (net.cpd l).evidence[a] k) +
      if k = i then (net.cpd l).variance else 0 := by
    intro k
    rw [load_eq hw hX h]
    by_cases hki : k = i
    · subst hki
      have h0 : (∑ a : Fin (net.cpd l).evidence.length,
          net.coef l a * load X (net.cpd l).evidence[a] k) = 0 := by
        apply Finset.sum_eq_zero
        intro a _
        rw [hpar a, mul_zero]
      rw [h0, if_pos rfl, if_pos rfl, zero_add, Real.mul_self_sqrt hv, zero_mul, zero_add]
    · rw [if_neg hki, if_neg hki, add_zero, add_zero]
  simp only [e, Finset.sum_add_distrib]
  rw [Finset.sum_ite_eq' (Finset.range net.top.length) i (fun _ => (net.cpd l).variance),
    if_pos (Finset.mem_range.2 hin), add_comm]
  congr 1
  simp only [Finset.sum_mul_sum]
  rw [Finset.sum_comm]
  apply Finset.sum_congr rfl; intro a _
  rw [Finset.sum_comm]
  apply Finset.sum_congr rfl; intro b _
  rw [follows_cov hw hX hE (parent_lt hw h a).1 (parent_lt hw h b).1, Finset.mul_sum]
  apply Finset.sum_congr rfl; intro k _
  ring

/-- The part of the variance of node `l` that comes from the correlation of distinct parents. -/
noncomputable def crossTerm (E : ((ℕ → ℝ) → ℝ) → ℝ) (net : GNet L ℝ) (X : L → (ℕ → ℝ) → ℝ) (l : L) :
    ℝ :=
  ∑ k : Fin (net.cpd l).evidence.length, ∑ m : Fin (net.cpd l).evidence.length,
    if k = m then 0 else net.coef l k * net.coef l m *
      Cov E (X (net.cpd l).evidence[k]) (X (net.cpd l).evidence[m])

theorem var_split (hw : NetWf net) (hX : Follows net X) (hE : Expectation net.top.length dom E)
    {i : ℕ} {l : L} (h : net.top[i]? = some l) :
    Cov E (X l) (X l) = (net.cpd l).variance + (∑ k : Fin (net.cpd l).evidence.length,
      Cov E (X (net.cpd l).evidence[k]) (X (net.cpd l).evidence[k]) * net.coef l k ^ 2) +
        crossTerm E net X l := by
  rw [follows_var hw hX hE h, add_assoc]
  congr 1
  unfold crossTerm
  rw [← Finset.sum_add_distrib]
  apply Finset.sum_congr rfl; intro k _
  rw [← Finset.sum_erase_add _ _ (Finset.mem_univ k), add_comm,
    ← Finset.sum_erase_add (a := k) Finset.univ
      (fun m => if k = m then 0 else net.coef l k * net.coef l m *
        Cov E (X (net.cpd l).evidence[k]) (X (net.cpd l).evidence[m])) (Finset.mem_univ k),
    if_pos rfl, add_zero]
  congr 1
  · ring
  · apply Finset.sum_congr rfl; intro m hm
    rw [if_neg (Finset.ne_of_mem_erase hm).symm]

/-- The matrix of the code is the covariance matrix if and only if no node has a cross term. -/
theorem sigma_iff (hw : NetWf net) (hX : Follows net X) (hE : Expectation net.top.length dom E)
    {s : ℕ → ℕ → ℝ} (hsym : ∀ i j, s i j = s j i)
    (hd : ∀ (i : ℕ) (l : L), net.top[i]? = some l → s i i = net.diagVal s l)
    (hc : ∀ (i j : ℕ) (l : L), i < j → net.top[j]? = some l → s i j = net.covVal s i l) :
    (∀ l ∈ net.top, ∀ l' ∈ net.top, s (net.pos l) (net.pos l') = Cov E (X l) (X l')) ↔
      ∀ l ∈ net.top, crossTerm E net X l = 0 := by
  have hd' : ∀ (i : ℕ) (l : L), net.top[i]? = some l → s i i = (net.cpd l).variance +
      ∑ k : Fin (net.cpd l).evidence.length, s (net.pos (net.cpd l).evidence[k])
        (net.pos (net.cpd l).evidence[k]) * net.coef l k ^ 2 := by
    intro i l h
    rw [hd i l h]
    unfold GNet.diagVal
    rw [links_fin hw (List.mem_of_getElem? h) (fun b k => s k k * b ^ 2)]
  have hc' : ∀ (i j : ℕ) (l : L), i < j → net.top[j]? = some l → s i j =
      ∑ k : Fin (net.cpd l).evidence.length, net.coef l k * s i (net.pos (net.cpd l).evidence[k]) := by
    intro i j l hij h
    rw [hc i j l hij h]
    unfold GNet.covVal
    rw [links_fin hw (List.mem_of_getElem? h) (fun b k => b * s i k)]
  constructor
  · intro h l hl
    have h1 := var_split hw hX hE (top_pos hl)
    have h2 := hd' _ l (top_pos hl)
    rw [h l hl l hl] at h2
    have h3 : ∑ k : Fin (net.cpd l).evidence.length, s (net.pos (net.cpd l).evidence[k])
        (net.pos (net.cpd l).evidence[k]) * net.coef l k ^ 2 =
        ∑ k : Fin (net.cpd l).evidence.length,
          Cov E (X (net.cpd l).evidence[k]) (X (net.cpd l).evidence[k]) * net.coef l k ^ 2 := by
      apply Finset.sum_congr rfl; intro k _
      have := (parent_lt hw (top_pos hl) k).1
      rw [h _ this _ this]
    rw [h3] at h2
    linarith
  · intro h
    have key : ∀ n, ∀ (i j : ℕ) (l l' : L), i < n → j < n → net.top[i]? = some l →
        net.top[j]? = some l' → s i j = Cov E (X l) (X l') := by
      intro n
      induction n with
      | zero => intro i j l l' hi; omega
      | succ n ih =>
        have lt_case : ∀ (i j : ℕ) (l l' : L), i < j → j < n + 1 → net.top[i]? = some l →
            net.top[j]? = some l' → s i j = Cov E (X l) (X l') := by
          intro i j l l' hij hj hl hl'
          rw [hc' i j l' hij hl', follows_cov_lt hw hX hE hl hl' hij]
          apply Finset.sum_congr rfl; intro k _
          obtain ⟨h1, h2⟩ := parent_lt hw hl' k
          rw [ih i _ l _ (by omega) (by omega) hl (top_pos h1)]
        intro i j l l' hi hj hl hl'
        rcases Nat.lt_trichotomy i j with hij | hij | hij
        · exact lt_case i j l l' hij hj hl hl'
        · subst hij
          rw [hl] at hl'
          obtain rfl := Option.some.inj hl'
          rw [hd' i l hl, var_split hw hX hE hl, h l (List.mem_of_getElem? hl), add_zero]
          congr 1
          apply Finset.sum_congr rfl; intro k _
          obtain ⟨h1, h2⟩ := parent_lt hw hl k
          rw [ih _ _ _ _ (by omega) (by omega) (top_pos h1) (top_pos h1)]
        · rw [hsym i j, cov_symm]
          exact lt_case j i l' l hij hi hl' hl
    intro l hl l' hl'
    have b1 := (List.getElem?_eq_some_iff.1 (top_pos hl)).1
    have b2 := (List.getElem?_eq_some_iff.1 (top_pos hl')).1
    exact key net.top.length _ _ l l' b1 b2 (top_pos hl) (top_pos hl')

end real

end Verif
