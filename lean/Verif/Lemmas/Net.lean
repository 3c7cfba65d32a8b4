/- The loops of `get_mu` and `get_sigma` on well formed networks. -/
import Verif.Spec.Net
import Verif.Lemmas.Py

set_option linter.unusedSectionVars false

namespace Verif

open Spec

theorem foldlM_range_inv {α : Type} {f : α → ℕ → Except PyErr α} {P : ℕ → α → Prop} {s0 : α}
    (n : ℕ) (h0 : P 0 s0) (hs : ∀ i < n, ∀ s, P i s → ∃ s', f s i = .ok s' ∧ P (i + 1) s') :
    ∃ s, (List.range n).foldlM f s0 = .ok s ∧ P n s := by
  induction n with
  | zero => exact ⟨s0, rfl, h0⟩
  | succ n ih =>
    obtain ⟨s, h1, h2⟩ := ih (fun i hi => hs i (by omega))
    obtain ⟨s', h3, h4⟩ := hs n (by omega) s h2
    refine ⟨s', ?_, h4⟩
    rw [List.range_succ, List.foldlM_append, h1]
    simp only [bind, Except.bind, List.foldlM_cons, List.foldlM_nil, h3, pure, Except.pure]

theorem foldlM_range'_inv {α : Type} {f : α → ℕ → Except PyErr α} {P : ℕ → α → Prop} {s0 : α}
    (a n : ℕ) (h0 : P a s0)
    (hs : ∀ i, a ≤ i → i < a + n → ∀ s, P i s → ∃ s', f s i = .ok s' ∧ P (i + 1) s') :
    ∃ s, (List.range' a n).foldlM f s0 = .ok s ∧ P (a + n) s := by
  induction n generalizing a s0 with
  | zero => exact ⟨s0, rfl, h0⟩
  | succ n ih =>
    obtain ⟨s', h3, h4⟩ := hs a (le_refl a) (by omega) s0 h0
    obtain ⟨s, h1, h2⟩ := ih (a + 1) h4 (fun i hi hi2 => hs i (by omega) (by omega))
    refine ⟨s, ?_, by rw [show a + (n + 1) = a + 1 + n by omega]; exact h2⟩
    rw [List.range'_succ, List.foldlM_cons, h3]
    exact h1

section

variable {L K : Type} [DecidableEq L] [Field K] [LinearOrder K] {net : GNet L K}

/-- Position of a name. -/
def GNet.pos (net : GNet L K) (l : L) : ℕ := net.top.idxOf l

theorem pos_eq (hw : NetWf net) {i : ℕ} {l : L} (h : net.top[i]? = some l) : net.pos l = i := by
  obtain ⟨hi, rfl⟩ := List.getElem?_eq_some_iff.1 h
  exact hw.nodup.idxOf_getElem i hi

theorem top_pos {l : L} (h : l ∈ net.top) : net.top[net.pos l]? = some l := by
  have h1 : net.top.idxOf l < net.top.length := List.idxOf_lt_length_iff.2 h
  show net.top[net.top.idxOf l]? = some l
  rw [List.getElem?_eq_getElem h1, List.getElem_idxOf]

theorem idxOf?_mem {top : List L} {l : L} (h : l ∈ top) : top.idxOf? l = some (top.idxOf l) := by
  induction top with
  | nil => simp at h
  | cons a as ih =>
    rw [List.idxOf?_cons, List.idxOf_cons]
    by_cases hal : a = l
    · simp [hal]
    · have : l ∈ as := by
        rcases List.mem_cons.1 h with rfl | h
        · exact absurd rfl hal
        · exact h
      simp [ih this, beq_false_of_ne hal]

theorem mapME_map {A B : Type} {f : A → Except PyErr B} {g : A → B} {l : List A}
    (h : ∀ a ∈ l, f a = .ok (g a)) : l.mapM f = .ok (l.map g) := by
  induction l with
  | nil => rfl
  | cons a l ih =>
    rw [List.mapM_cons, h a (by simp), ih (fun b hb => h b (by simp [hb]))]
    rfl

/-- Coefficients and positions of the parents. -/
def GNet.links (net : GNet L K) (l : L) : List (K × ℕ) :=
  List.zipWith (fun b p => (b, net.pos p)) ((net.cpd l).beta.drop 1) (net.cpd l).evidence

theorem mem_of_order (hw : NetWf net) {i : ℕ} {l p : L} (h : net.top[i]? = some l)
    (hp : p ∈ (net.cpd l).evidence) : p ∈ net.top ∧ net.pos p < i := by
  have hm := hw.order i l h p hp
  refine ⟨List.mem_of_mem_take hm, ?_⟩
  obtain ⟨k, hk⟩ := List.mem_iff_getElem?.1 hm
  rw [List.getElem?_take] at hk
  split at hk
  · rename_i hki
    rw [pos_eq hw hk]; exact hki
  · simp at hk

theorem terms_eq (hw : NetWf net) {i : ℕ} {l : L} (h : net.top[i]? = some l) :
    net.terms l = .ok (net.links l) := by
  have hb := hw.beta l (List.mem_of_getElem? h)
  unfold GNet.terms
  refine (mapME_map (g := fun j => ((net.cpd l).beta.getD (j + 1) 0,
    ((net.cpd l).evidence[j]?.map net.pos).getD 0)) ?_).trans ?_
  · intro j hj
    have hj := List.mem_range.1 hj
    have hje : j < (net.cpd l).evidence.length := by omega
    rw [List.getElem?_eq_getElem hje]
    simp only
    rw [idxOf?_mem (mem_of_order hw h (List.getElem_mem hje)).1]
    rfl
  congr 1
  apply List.ext_getElem?
  intro j
  unfold GNet.links
  rw [List.getElem?_map, List.getElem?_zipWith, List.getElem?_drop]
  by_cases hj : j < (net.cpd l).evidence.length
  · rw [List.getElem?_range (by omega), List.getElem?_eq_getElem hj,
      List.getElem?_eq_getElem (l := (net.cpd l).beta) (by omega)]
    simp only [Option.map_some]
    rw [List.getElem?_eq_getElem hj]
    simp only [List.getD_eq_getElem?_getD, Option.some.injEq, Prod.mk.injEq, Option.map_some,
      Option.getD_some, and_true]
    rw [List.getElem?_eq_getElem (l := (net.cpd l).beta) (by omega), Option.getD_some]
    congr 1
    omega
  · rw [List.getElem?_eq_none (l := List.range _) (by rw [List.length_range]; omega),
      List.getElem?_eq_none (l := (net.cpd l).evidence) (by omega)]
    simp only [Option.map_none]
    cases (net.cpd l).beta[1 + j]? <;> rfl

theorem links_lt (hw : NetWf net) {i : ℕ} {l : L} (h : net.top[i]? = some l) :
    ∀ t ∈ net.links l, t.2 < i := by
  intro t ht
  unfold GNet.links at ht
  obtain ⟨k, hk⟩ := List.mem_iff_getElem?.1 ht
  rw [List.getElem?_zipWith] at hk
  cases h1 : ((net.cpd l).beta.drop 1)[k]? with
  | none => rw [h1] at hk; simp at hk
  | some b =>
    cases h2 : (net.cpd l).evidence[k]? with
    | none => rw [h1, h2] at hk; simp at hk
    | some p =>
      rw [h1, h2] at hk
      simp only [Option.some.injEq] at hk
      rw [← hk]
      exact (mem_of_order hw h (List.mem_of_getElem? h2)).2

theorem foldl_upd1 (ts : List (K × ℕ)) (mu : ℕ → K) (i : ℕ) (h : ∀ t ∈ ts, t.2 < i) :
    ts.foldl (fun mu t => upd1 mu i (mu i + t.1 * mu t.2)) mu =
      upd1 mu i (mu i + (ts.map (fun t => t.1 * mu t.2)).sum) := by
  induction ts generalizing mu with
  | nil =>
    funext a
    simp only [List.foldl_nil, List.map_nil, List.sum_nil, add_zero, upd1]
    split
    · rename_i h; rw [h]
    · rfl
  | cons t ts ih =>
    rw [List.foldl_cons, ih _ (fun t ht => h t (by simp [ht]))]
    have e : ∀ x ∈ ts, upd1 mu i (mu i + t.1 * mu t.2) x.2 = mu x.2 := by
      intro x hx
      unfold upd1
      rw [if_neg]
      have := h x (by simp [hx])
      omega
    have e2 : ts.map (fun x => x.1 * upd1 mu i (mu i + t.1 * mu t.2) x.2) =
        ts.map (fun x => x.1 * mu x.2) := List.map_congr_left (fun x hx => by rw [e x hx])
    rw [e2]
    funext a
    simp only [upd1, if_true, List.map_cons, List.sum_cons]
    split
    · ring
    · rfl

theorem links_sum (net : GNet L K) (l : L) (g : K → ℕ → K) :
    ((net.links l).map (fun t => g t.1 t.2)).sum =
      (List.zipWith (fun b p => g b (net.pos p)) ((net.cpd l).beta.drop 1)
        (net.cpd l).evidence).sum := by
  unfold GNet.links
  rw [List.map_zipWith]

theorem linear_eq (net : GNet L K) (l : L) (mu : ℕ → K) {b0 : K}
    (h : (net.cpd l).beta[0]? = some b0) :
    linear (net.cpd l) (fun p => mu (net.pos p)) =
      b0 + ((net.links l).map (fun t => t.1 * mu t.2)).sum := by
  rw [links_sum net l (fun b k => b * mu k)]
  unfold linear
  cases hb : (net.cpd l).beta with
  | nil => rw [hb] at h; simp at h
  | cons b bs =>
    rw [hb] at h
    simp only [List.length_cons, Nat.zero_lt_succ, List.getElem?_eq_getElem, List.getElem_cons_zero,
      Option.some.injEq] at h
    rw [← h]; rfl

/-- The mean equations hold for the first `n` nodes. -/
def GNet.MuUpTo (net : GNet L K) (n : ℕ) (mu : ℕ → K) : Prop :=
  ∀ (i : ℕ) (l : L), i < n → net.top[i]? = some l →
    mu i = linear (net.cpd l) (fun p => mu (net.pos p))

/-- `get_mu` computes the solution of the mean equations. -/
theorem muVec_ok (hw : NetWf net) : ∃ mu, net.muVec = .ok mu ∧
    ∀ (i : ℕ) (l : L), net.top[i]? = some l →
      mu i = linear (net.cpd l) (fun p => mu (net.pos p)) := by
  have hs : ∀ i < net.top.length, ∀ mu, net.MuUpTo i mu →
      ∃ mu', net.muStep mu i = .ok mu' ∧ net.MuUpTo (i + 1) mu' := by
    intro i hi mu hP
    have hl := List.getElem?_eq_getElem hi
    have hb := hw.beta _ (List.mem_of_getElem? hl)
    have hb0 : (net.cpd net.top[i]).beta[0]? = some (net.cpd net.top[i]).beta[0] :=
      List.getElem?_eq_getElem (by omega)
    refine ⟨upd1 mu i (linear (net.cpd net.top[i]) (fun p => mu (net.pos p))), ?_, ?_⟩
    · unfold GNet.muStep
      rw [hl]
      simp only
      rw [hb0, terms_eq hw hl]
      simp only [Except.ok.injEq]
      rw [foldl_upd1 _ _ _ (links_lt hw hl), linear_eq net _ mu hb0]
      have e : (net.links net.top[i]).map (fun t => t.1 * upd1 mu i (net.cpd net.top[i]).beta[0] t.2) =
          (net.links net.top[i]).map (fun t => t.1 * mu t.2) := by
        apply List.map_congr_left
        intro t ht
        have := links_lt hw hl t ht
        unfold upd1
        rw [if_neg (by omega)]
      rw [e]
      funext a
      simp only [upd1, if_true]
      split <;> rfl
    · have hpar : ∀ k l, k ≤ i → net.top[k]? = some l → ∀ x : K,
          linear (net.cpd l) (fun p => upd1 mu i x (net.pos p)) =
            linear (net.cpd l) (fun p => mu (net.pos p)) := by
        intro k l hk hkl x
        unfold linear
        congr 2
        apply List.ext_getElem?
        intro j
        rw [List.getElem?_zipWith, List.getElem?_zipWith]
        cases h2 : (net.cpd l).evidence[j]? with
        | none => cases ((net.cpd l).beta.drop 1)[j]? <;> rfl
        | some p =>
          have := (mem_of_order hw hkl (List.mem_of_getElem? h2)).2
          cases ((net.cpd l).beta.drop 1)[j]? with
          | none => rfl
          | some b =>
            simp only [upd1]
            rw [if_neg (by omega)]
      intro k l hk hkl
      rw [hpar k l (by omega) hkl]
      by_cases hki : k = i
      · subst hki
        rw [hl] at hkl
        rw [← Option.some.inj hkl]
        simp [upd1]
      · have : upd1 mu i (linear (net.cpd net.top[i]) (fun p => mu (net.pos p))) k = mu k := by
          unfold upd1; rw [if_neg hki]
        rw [this]
        exact hP k l (by omega) hkl
  obtain ⟨mu, h1, h2⟩ := foldlM_range_inv (f := net.muStep) (s0 := fun _ => 0)
    (P := net.MuUpTo) net.top.length (by intro i l hi; omega) hs
  refine ⟨mu, h1, fun i l h => h2 i l ?_ h⟩
  exact (List.getElem?_eq_some_iff.1 h).1

/-- The equations have one solution. -/
theorem linear_unique {R : Type} (hw : NetWf net) {x y : L → R} (g : CPD L K → (L → R) → R)
    (hg : ∀ c u v, (∀ p ∈ c.evidence, u p = v p) → g c u = g c v)
    (hx : ∀ l ∈ net.top, x l = g (net.cpd l) x) (hy : ∀ l ∈ net.top, y l = g (net.cpd l) y) :
    ∀ l ∈ net.top, x l = y l := by
  have key : ∀ n, ∀ (i : ℕ) (l : L), i < n → net.top[i]? = some l → x l = y l := by
    intro n
    induction n with
    | zero => intro i l hi; omega
    | succ n ih =>
      intro i l hi hl
      have hm := List.mem_of_getElem? hl
      rw [hx l hm, hy l hm]
      apply hg
      intro p hp
      obtain ⟨h1, h2⟩ := mem_of_order hw hl hp
      exact ih (net.pos p) p (by omega) (top_pos h1)
  intro l hl
  exact key (net.pos l + 1) _ l (by omega) (top_pos hl)

theorem linear_congr (c : CPD L K) {u v : L → K} (h : ∀ p ∈ c.evidence, u p = v p) :
    linear c u = linear c v := by
  unfold linear
  congr 2
  apply List.ext_getElem?
  intro j
  rw [List.getElem?_zipWith, List.getElem?_zipWith]
  cases h2 : c.evidence[j]? with
  | none => cases (c.beta.drop 1)[j]? <;> rfl
  | some p =>
    cases (c.beta.drop 1)[j]? with
    | none => rfl
    | some b => simp only [h p (List.mem_of_getElem? h2)]

theorem positions_ok {names : List L} (h : ∀ l ∈ names, l ∈ net.top) :
    positions net.top names = .ok (names.map net.pos) := by
  unfold positions
  apply mapME_map
  intro l hl
  rw [idxOf?_mem (h l hl)]
  rfl

theorem positions_error {names : List L} {l : L} (hl : l ∈ names) (h : l ∉ net.top) :
    positions net.top names = .error .valueError := by
  unfold positions
  induction names with
  | nil => simp at hl
  | cons a as ih =>
    rw [List.mapM_cons]
    by_cases ha : a ∈ net.top
    · rw [idxOf?_mem ha]
      have hne : l ∈ as := by
        rcases List.mem_cons.1 hl with rfl | h'
        · exact absurd ha h
        · exact h'
      rw [ih hne]; rfl
    · have : net.top.idxOf? a = none := by
        rw [List.idxOf?_eq_none_iff]; exact ha
      rw [this]; rfl

/-! ### The covariance matrix -/

theorem foldl_upd2_diag (ts : List (K × ℕ)) (s : ℕ → ℕ → K) (i : ℕ) (h : ∀ t ∈ ts, t.2 < i) :
    ts.foldl (fun s t => upd2 s i i (s i i + s t.2 t.2 * t.1 ^ 2)) s =
      upd2 s i i (s i i + (ts.map (fun t => s t.2 t.2 * t.1 ^ 2)).sum) := by
  induction ts generalizing s with
  | nil =>
    funext a b
    simp only [List.foldl_nil, List.map_nil, List.sum_nil, add_zero, upd2]
    split
    · rename_i h; rw [h.1, h.2]
    · rfl
  | cons t ts ih =>
    rw [List.foldl_cons, ih _ (fun t ht => h t (by simp [ht]))]
    have e2 : ts.map (fun x => upd2 s i i (s i i + s t.2 t.2 * t.1 ^ 2) x.2 x.2 * x.1 ^ 2) =
        ts.map (fun x => s x.2 x.2 * x.1 ^ 2) := by
      apply List.map_congr_left
      intro x hx
      have := h x (by simp [hx])
      unfold upd2
      rw [if_neg (by omega)]
    rw [e2]
    funext a b
    simp only [upd2, and_self, if_true, List.map_cons, List.sum_cons]
    split
    · ring
    · rfl

theorem foldl_upd2_cov (ts : List (K × ℕ)) (s : ℕ → ℕ → K) (i j : ℕ) (h : ∀ t ∈ ts, t.2 < j) :
    ts.foldl (fun s t => upd2 s i j (s i j + t.1 * s i t.2)) s =
      upd2 s i j (s i j + (ts.map (fun t => t.1 * s i t.2)).sum) := by
  induction ts generalizing s with
  | nil =>
    funext a b
    simp only [List.foldl_nil, List.map_nil, List.sum_nil, add_zero, upd2]
    split
    · rename_i h; rw [h.1, h.2]
    · rfl
  | cons t ts ih =>
    rw [List.foldl_cons, ih _ (fun t ht => h t (by simp [ht]))]
    have e2 : ts.map (fun x => x.1 * upd2 s i j (s i j + t.1 * s i t.2) i x.2) =
        ts.map (fun x => x.1 * s i x.2) := by
      apply List.map_congr_left
      intro x hx
      have := h x (by simp [hx])
      unfold upd2
      rw [if_neg (by omega)]
    rw [e2]
    funext a b
    simp only [upd2, and_self, if_true, List.map_cons, List.sum_cons]
    split
    · ring
    · rfl

/-- What the code puts on the diagonal. -/
def GNet.diagVal (net : GNet L K) (s : ℕ → ℕ → K) (l : L) : K :=
  (net.cpd l).variance + ((net.links l).map (fun t => s t.2 t.2 * t.1 ^ 2)).sum

/-- What the code puts at `(i, j)` for `i < j`. -/
def GNet.covVal (net : GNet L K) (s : ℕ → ℕ → K) (i : ℕ) (l : L) : K :=
  ((net.links l).map (fun t => t.1 * s i t.2)).sum

theorem diagVal_congr (hw : NetWf net) {s s' : ℕ → ℕ → K} {i : ℕ} {l : L}
    (h : net.top[i]? = some l) (he : ∀ k < i, s k k = s' k k) :
    net.diagVal s l = net.diagVal s' l := by
  unfold GNet.diagVal
  rw [List.map_congr_left (fun t ht => by rw [he _ (links_lt hw h t ht)])]

theorem covVal_congr (hw : NetWf net) {s s' : ℕ → ℕ → K} {i j : ℕ} {l : L}
    (h : net.top[j]? = some l) (he : ∀ k < j, s i k = s' i k) :
    net.covVal s i l = net.covVal s' i l := by
  unfold GNet.covVal
  rw [List.map_congr_left (fun t ht => by rw [he _ (links_lt hw h t ht)])]

/-- After the first loop of `get_sigma`. -/
structure GNet.DiagUpTo (net : GNet L K) (n : ℕ) (s : ℕ → ℕ → K) : Prop where
  diag : ∀ (i : ℕ) (l : L), i < n → net.top[i]? = some l → s i i = net.diagVal s l
  off : ∀ i j, i ≠ j → s i j = 0

theorem diag_ok (hw : NetWf net) :
    ∃ s, (List.range net.top.length).foldlM net.diagStep (fun _ _ => 0) = .ok s ∧
      net.DiagUpTo net.top.length s := by
  refine foldlM_range_inv (P := net.DiagUpTo) _ ⟨by intro i l hi; omega, fun _ _ _ => rfl⟩ ?_
  intro i hi s hP
  have hl := List.getElem?_eq_getElem hi
  refine ⟨upd2 s i i (net.diagVal s net.top[i]), ?_, ?_, ?_⟩
  · unfold GNet.diagStep
    rw [hl]
    simp only
    rw [terms_eq hw hl]
    simp only [Except.ok.injEq]
    rw [foldl_upd2_diag _ _ _ (links_lt hw hl)]
    have e : net.diagVal s net.top[i] = (net.cpd net.top[i]).variance +
        ((net.links net.top[i]).map (fun t =>
          upd2 s i i (net.cpd net.top[i]).variance t.2 t.2 * t.1 ^ 2)).sum := by
      unfold GNet.diagVal
      congr 2
      apply List.map_congr_left
      intro t ht
      have := links_lt hw hl t ht
      unfold upd2
      rw [if_neg (by omega)]
    rw [e]
    funext a b
    simp only [upd2, and_self, if_true]
    split <;> rfl
  · intro k l hk hkl
    have e : net.diagVal (upd2 s i i (net.diagVal s net.top[i])) l = net.diagVal s l := by
      apply diagVal_congr hw hkl
      intro m hm
      unfold upd2
      rw [if_neg (by omega)]
    rw [e]
    by_cases hki : k = i
    · subst hki
      rw [hl] at hkl
      rw [← Option.some.inj hkl]
      simp [upd2]
    · unfold upd2
      rw [if_neg (by omega)]
      exact hP.diag k l (by omega) hkl
  · intro a b hab
    unfold upd2
    rw [if_neg (by omega)]
    exact hP.off a b hab

/-- Before row `n` of the second loop of `get_sigma`. -/
structure GNet.CovUpTo (net : GNet L K) (n : ℕ) (s : ℕ → ℕ → K) : Prop where
  diag : ∀ (i : ℕ) (l : L), net.top[i]? = some l → s i i = net.diagVal s l
  cov : ∀ (i j : ℕ) (l : L), i < n → i < j → net.top[j]? = some l → s i j = net.covVal s i l
  symm : ∀ i j, s i j = s j i
  off : ∀ i j, n ≤ i → n ≤ j → i ≠ j → s i j = 0

/-- In row `i` of the second loop of `get_sigma`, before column `n`. -/
structure GNet.RowUpTo (net : GNet L K) (i n : ℕ) (s : ℕ → ℕ → K) : Prop where
  diag : ∀ (i : ℕ) (l : L), net.top[i]? = some l → s i i = net.diagVal s l
  cov : ∀ (a j : ℕ) (l : L), a < i → a < j → net.top[j]? = some l → s a j = net.covVal s a l
  covRow : ∀ (j : ℕ) (l : L), i < j → j < n → net.top[j]? = some l → s i j = net.covVal s i l
  symm : ∀ i j, s i j = s j i
  off : ∀ a b, i ≤ a → i ≤ b → a ≠ b → (a = i → n ≤ b) → (b = i → n ≤ a) → s a b = 0

theorem row_step (hw : NetWf net) {i j : ℕ} (hij : i < j) (hj : j < net.top.length) {s : ℕ → ℕ → K}
    (hP : net.RowUpTo i j s) : ∃ s', net.covStep i s j = .ok s' ∧ net.RowUpTo i (j + 1) s' := by
  have hl := List.getElem?_eq_getElem hj
  have h0 : s i j = 0 := hP.off i j (le_refl _) (by omega) (by omega) (by omega) (by omega)
  have same : ∀ x : K, ∀ a b, ¬ (a = i ∧ b = j) → ¬ (a = j ∧ b = i) →
      upd2 (upd2 s i j x) j i x a b = s a b := by
    intro x a b h1 h2
    unfold upd2
    rw [if_neg h2, if_neg h1]
  refine ⟨upd2 (upd2 s i j (net.covVal s i net.top[j])) j i (net.covVal s i net.top[j]), ?_, ?_⟩
  · unfold GNet.covStep
    rw [hl]
    simp only
    rw [terms_eq hw hl]
    simp only [Except.ok.injEq]
    rw [foldl_upd2_cov _ _ _ _ (links_lt hw hl), h0, zero_add]
    show upd2 _ j i (upd2 s i j _ i j) = _
    congr 1
    unfold upd2
    rw [if_pos ⟨rfl, rfl⟩]
    rfl
  generalize hx : net.covVal s i net.top[j] = x
  have hi' : upd2 (upd2 s i j x) j i x i j = x := by
    unfold upd2
    rw [if_neg (by omega), if_pos ⟨rfl, rfl⟩]
  have hji : upd2 (upd2 s i j x) j i x j i = x := by
    unfold upd2
    rw [if_pos ⟨rfl, rfl⟩]
  refine ⟨?_, ?_, ?_, ?_, ?_⟩
  · intro k l hkl
    rw [same x k k (by omega) (by omega), hP.diag k l hkl]
    apply diagVal_congr hw hkl
    intro m _
    rw [same x m m (by omega) (by omega)]
  · intro a b l ha hab hbl
    rw [same x a b (by omega) (by omega), hP.cov a b l ha hab hbl]
    apply covVal_congr hw hbl
    intro m _
    rw [same x a m (by omega) (by omega)]
  · intro b l hib hbj hbl
    have e : net.covVal (upd2 (upd2 s i j x) j i x) i l = net.covVal s i l := by
      apply covVal_congr hw hbl
      intro m hm
      rw [same x i m (by omega) (by omega)]
    rw [e]
    by_cases hb : b = j
    · subst hb
      rw [hl] at hbl
      rw [hi', ← hx, Option.some.inj hbl]
    · rw [same x i b (by omega) (by omega)]
      exact hP.covRow b l hib (by omega) hbl
  · intro a b
    by_cases h1 : a = i ∧ b = j
    · rw [h1.1, h1.2, hi', hji]
    by_cases h2 : a = j ∧ b = i
    · rw [h2.1, h2.2, hi', hji]
    rw [same x a b h1 h2, same x b a (by omega) (by omega)]
    exact hP.symm a b
  · intro a b ha hb hab h1 h2
    rw [same x a b (by omega) (by omega)]
    exact hP.off a b ha hb hab (fun h => by have := h1 h; omega) (fun h => by have := h2 h; omega)

theorem cov_ok (hw : NetWf net) {d : ℕ → ℕ → K} (hd : net.DiagUpTo net.top.length d) :
    ∃ s, (List.range net.top.length).foldlM net.covRow d = .ok s ∧
      net.CovUpTo net.top.length s := by
  refine foldlM_range_inv (P := net.CovUpTo) _ ⟨?_, ?_, ?_, ?_⟩ ?_
  · intro i l hl
    exact hd.diag i l (List.getElem?_eq_some_iff.1 hl).1 hl
  · intro i j l hi; omega
  · intro i j
    by_cases h : i = j
    · rw [h]
    · rw [hd.off i j h, hd.off j i (Ne.symm h)]
  · intro i j _ _ h; exact hd.off i j h
  · intro i hi s hP
    have hrow : net.RowUpTo i (i + 1) s :=
      ⟨hP.diag, hP.cov, by intro j l h1 h2; omega, hP.symm,
        fun a b ha hb hab _ _ => hP.off a b ha hb hab⟩
    obtain ⟨s', h1, h2⟩ := foldlM_range'_inv (f := net.covStep i) (P := net.RowUpTo i) (i + 1)
      (net.top.length - (i + 1)) hrow
      (fun j hj1 hj2 s hs => row_step hw (by omega) (by omega) hs)
    refine ⟨s', h1, h2.diag, ?_, h2.symm, ?_⟩
    · intro a j l ha haj hjl
      by_cases hai : a = i
      · subst hai
        have := (List.getElem?_eq_some_iff.1 hjl).1
        exact h2.covRow j l haj (by omega) hjl
      · exact h2.cov a j l (by omega) haj hjl
    · intro a b ha hb hab
      exact h2.off a b (by omega) (by omega) hab (by omega) (by omega)

/-- The equations solved by `get_sigma`; its assertion holds. -/
theorem sigmaMat_ok [IsStrictOrderedRing K] (hw : NetWf net) : ∃ s, net.sigmaMat = .ok s ∧
    (∀ i j, s i j = s j i) ∧
    (∀ (i : ℕ) (l : L), net.top[i]? = some l → s i i = net.diagVal s l) ∧
    (∀ (i j : ℕ) (l : L), i < j → net.top[j]? = some l → s i j = net.covVal s i l) := by
  obtain ⟨d, h1, h2⟩ := diag_ok hw
  obtain ⟨s, h3, h4⟩ := cov_ok hw h2
  refine ⟨s, ?_, h4.symm, h4.diag, ?_⟩
  · unfold GNet.sigmaMat
    rw [h1]
    simp only
    rw [h3]
    simp only
    rw [if_pos]
    unfold checkSymmetric
    simp only [List.all_eq_true, decide_eq_true_eq]
    intro i _ j _
    rw [h4.symm i j, sub_self, abs_zero]
    positivity
  · intro i j l hij hl
    have := (List.getElem?_eq_some_iff.1 hl).1
    exact h4.cov i j l (by omega) hij hl

end

end Verif
