/- `inference` of the Gaussian network: from lists to sums, and the pseudo-inverse. -/
import Verif.Lemmas.NetMoments

set_option linter.unusedSectionVars false

namespace Verif

open Spec

section pinv

variable {K : Type} [Field K] {n : ℕ} {a p q : Matrix (Fin n) (Fin n) K}

theorem pinv_unique (hp : IsPinv a p) (hq : IsPinv a q) : p = q := by
  have h1 : a * p = a * q := by
    calc a * p = (a * q * a) * p := by rw [hq.one]
      _ = (a * q) * (a * p) := by simp only [Matrix.mul_assoc]
      _ = (a * q).transpose * (a * p).transpose := by rw [hq.three, hp.three]
      _ = ((a * p) * (a * q)).transpose := (Matrix.transpose_mul _ _).symm
      _ = (a * p * a * q).transpose := by simp only [Matrix.mul_assoc]
      _ = a * q := by rw [hp.one, hq.three]
  have h2 : p * a = q * a := by
    calc p * a = p * (a * q * a) := by rw [hq.one]
      _ = (p * a) * (q * a) := by simp only [Matrix.mul_assoc]
      _ = (p * a).transpose * (q * a).transpose := by rw [hq.four, hp.four]
      _ = ((q * a) * (p * a)).transpose := (Matrix.transpose_mul _ _).symm
      _ = (q * (a * p * a)).transpose := by simp only [Matrix.mul_assoc]
      _ = q * a := by rw [hp.one, hq.four]
  calc p = p * a * p := hp.two.symm
    _ = q * a * p := by rw [h2]
    _ = q * (a * p) := Matrix.mul_assoc _ _ _
    _ = q * (a * q) := by rw [h1]
    _ = q * a * q := (Matrix.mul_assoc _ _ _).symm
    _ = q := hq.two

/-- The pseudo-inverse of a symmetric matrix is symmetric. -/
theorem pinv_symm (ha : a.transpose = a) (hp : IsPinv a p) : p.transpose = p := by
  refine pinv_unique (a := a) ⟨?_, ?_, ?_, ?_⟩ hp
  · have := congrArg Matrix.transpose hp.one
    simpa [Matrix.transpose_mul, ha, Matrix.mul_assoc] using this
  · have := congrArg Matrix.transpose hp.two
    simpa [Matrix.transpose_mul, ha, Matrix.mul_assoc] using this
  · have h := hp.four
    rw [Matrix.transpose_mul, ha] at h
    rw [h, Matrix.transpose_mul, ha, h]
  · have h := hp.three
    rw [Matrix.transpose_mul, ha] at h
    rw [h, Matrix.transpose_mul, ha, h]

end pinv

/-- For a Gram matrix the pseudo-inverse acts as an inverse on everything in the row space. -/
theorem gram_pinv {n1 n2 N : ℕ} {A : Matrix (Fin n1) (Fin N) ℝ} {B : Matrix (Fin n2) (Fin N) ℝ}
    {p : Matrix (Fin n2) (Fin n2) ℝ} (hp : IsPinv (B * B.transpose) p) :
    A * B.transpose * p * (B * B.transpose) = A * B.transpose := by
  have h0 : B.transpose * (1 - p * (B * B.transpose)) = 0 := by
    apply Matrix.conjTranspose_mul_self_eq_zero.1
    rw [Matrix.conjTranspose_eq_transpose_of_trivial, Matrix.transpose_mul, Matrix.transpose_transpose,
      Matrix.mul_assoc, ← Matrix.mul_assoc B]
    have : B * B.transpose * (1 - p * (B * B.transpose)) = 0 := by
      rw [Matrix.mul_sub, Matrix.mul_one, ← Matrix.mul_assoc, hp.one, sub_self]
    rw [this, Matrix.mul_zero]
  have h1 : A * (B.transpose * (1 - p * (B * B.transpose))) = 0 := by rw [h0, Matrix.mul_zero]
  rw [Matrix.mul_sub, Matrix.mul_one, Matrix.mul_sub, sub_eq_zero] at h1
  rw [Matrix.mul_assoc, Matrix.mul_assoc, ← h1]

section

variable {L K : Type} [DecidableEq L] [Field K] [LinearOrder K] {net : GNet L K}

theorem entry_grid {α : Type} (f : α → α → K) (as bs : List α) {i j : ℕ} {x y : α}
    (hx : as[i]? = some x) (hy : bs[j]? = some y) :
    entry (as.map (fun a => bs.map (fun b => f a b))) i j = f x y := by
  unfold entry
  simp only [List.getD_eq_getElem?_getD, List.getElem?_map, hx, hy, Option.map_some, Option.getD_some]

theorem list_map_fin {α β : Type} (l : List α) (f : α → β) (g : ℕ → β)
    (h : ∀ i (x : α), l[i]? = some x → g i = f x) : (List.range l.length).map g = l.map f := by
  apply List.ext_getElem?
  intro i
  rw [List.getElem?_map, List.getElem?_map]
  by_cases hi : i < l.length
  · rw [List.getElem?_range hi, List.getElem?_eq_getElem hi]
    simp only [Option.map_some, Option.some.injEq]
    exact h i _ (List.getElem?_eq_getElem hi)
  · rw [List.getElem?_eq_none (by simpa using hi), List.getElem?_eq_none (by omega)]; rfl

theorem sum_range_fin (n : ℕ) (g : ℕ → K) : ((List.range n).map g).sum = ∑ a : Fin n, g a := by
  rw [Fin.sum_univ_eq_sum_range, ← List.sum_toFinset _ (List.nodup_range), List.toFinset_range]

theorem truthy_append {l : List L} (h : l ≠ []) : truthy (some l) = true := by
  cases l with
  | nil => exact absurd rfl h
  | cons a as => rfl

theorem getMu_some {mu : ℕ → K} (hmu : net.muVec = .ok mu) {names : List L}
    (hne : names ≠ []) (h : ∀ l ∈ names, l ∈ net.top) :
    net.getMu (some names) = .ok (names.map (fun l => mu (net.pos l))) := by
  unfold GNet.getMu
  rw [hmu]
  simp only [truthy_append hne, if_true, Option.getD_some]
  rw [positions_ok h]
  simp only [List.map_map]
  rfl

theorem getMu_all (hw : NetWf net) {mu : ℕ → K} (hmu : net.muVec = .ok mu) {o : Option (List L)}
    (ho : o = none ∨ o = some []) :
    net.getMu o = .ok (net.top.map (fun l => mu (net.pos l))) := by
  have ht : truthy o = false := by rcases ho with rfl | rfl <;> rfl
  unfold GNet.getMu
  rw [hmu]
  simp only [ht, Bool.false_eq_true, if_false, Except.ok.injEq]
  apply list_map_fin
  intro i l hl
  rw [pos_eq hw hl]

theorem getSigma_some {s : ℕ → ℕ → K} (hs : net.sigmaMat = .ok s) {names : List L}
    (hne : names ≠ []) (h : ∀ l ∈ names, l ∈ net.top) :
    net.getSigma (some names) =
      .ok (names.map (fun l => names.map (fun l' => s (net.pos l) (net.pos l')))) := by
  unfold GNet.getSigma
  rw [hs]
  simp only [truthy_append hne, if_true, Option.getD_some]
  rw [positions_ok h]
  simp only [subMat, List.map_map]
  rfl

theorem getSigma_all (hw : NetWf net) {s : ℕ → ℕ → K} (hs : net.sigmaMat = .ok s)
    {o : Option (List L)} (ho : o = none ∨ o = some []) :
    net.getSigma o =
      .ok (net.top.map (fun l => net.top.map (fun l' => s (net.pos l) (net.pos l')))) := by
  have ht : truthy o = false := by rcases ho with rfl | rfl <;> rfl
  unfold GNet.getSigma
  rw [hs]
  simp only [ht, Bool.false_eq_true, if_false, Except.ok.injEq, subMat]
  apply list_map_fin
  intro i l hl
  rw [pos_eq hw hl]
  apply list_map_fin
  intro j l' hl'
  rw [pos_eq hw hl']

theorem matVec_map {α : Type} {n : ℕ} (as : List α) (f : α → List K)
    (hf : ∀ a ∈ as, (f a).length = n) (v : List K) (hv : v.length = n) :
    matVec (as.map f) v = as.map (fun a => ∑ k : Fin n, (f a).getD k 0 * v.getD k 0) := by
  unfold matVec
  rw [List.map_map]
  apply List.map_congr_left
  intro a ha
  subst hv
  rw [Function.comp, zipWith_sum (fun x y => x * y) 0 _ _ (hf a ha)]
  apply Finset.sum_congr rfl
  intro k _
  congr 1
  rw [List.getD_eq_getElem?_getD, List.getElem?_eq_getElem k.2]
  rfl

/-- The covariance block of the evidence variables. -/
def GNet.block (net : GNet L K) (s : ℕ → ℕ → K) (names : List L) : List (List K) :=
  names.map (fun l => names.map (fun l' => s (net.pos l) (net.pos l')))

/-- `inference` written with sums. -/
theorem inference_eq (hw : NetWf net) {mu : ℕ → K} (hmu : net.muVec = .ok mu) {s : ℕ → ℕ → K}
    (hs : net.sigmaMat = .ok s) {setDiff : List L → List L → List L} (hsd : IsSetDiff setDiff)
    {pinv : List (List K) → List (List K)} {names : List L} (hn : ∀ l ∈ names, l ∈ net.top)
    (hpr : (pinv (net.block s names)).length = names.length)
    (hpc : ∀ r ∈ pinv (net.block s names), r.length = names.length)
    {ev : List K} (hev : ev.length = names.length) :
    net.inference setDiff pinv (some net.top) ev names = .ok
      ((setDiff net.top names).map (fun l => mu (net.pos l) +
        ∑ a : Fin names.length, s (net.pos l) (net.pos names[a]) *
          ∑ b : Fin names.length, entry (pinv (net.block s names)) a b *
            (ev.getD b 0 - mu (net.pos names[b]))),
       (setDiff net.top names).map (fun l => (setDiff net.top names).map (fun l' =>
        s (net.pos l) (net.pos l') - ∑ a : Fin names.length, s (net.pos l) (net.pos names[a]) *
          ∑ b : Fin names.length, entry (pinv (net.block s names)) a b *
            s (net.pos names[b]) (net.pos l')))) := by
  obtain ⟨v1, hv1⟩ : ∃ v1, v1 = setDiff net.top names := ⟨_, rfl⟩
  have hvmem : ∀ l ∈ v1 ++ names, l ∈ net.top := by
    intro l hl
    rcases List.mem_append.1 hl with h | h
    · rw [hv1] at h; exact (((hsd net.top names).2 l).1 h).1
    · exact hn l h
  have hM : net.getMu (some (v1 ++ names)) = .ok ((v1 ++ names).map (fun l => mu (net.pos l))) := by
    by_cases hne : v1 ++ names = []
    · have htop : net.top = [] := by
        rcases List.eq_nil_or_concat net.top with h | ⟨_, x, h⟩
        · exact h
        · exfalso
          have hx : x ∈ net.top := by rw [h]; simp
          have : x ∈ v1 ++ names := by
            by_cases hxn : x ∈ names
            · exact List.mem_append_right _ hxn
            · apply List.mem_append_left
              rw [hv1]; exact ((hsd net.top names).2 x).2 ⟨hx, hxn⟩
          rw [hne] at this; simp at this
      rw [hne, getMu_all hw hmu (Or.inr rfl), htop]
    · exact getMu_some hmu hne hvmem
  have hS : net.getSigma (some (v1 ++ names)) = .ok ((v1 ++ names).map (fun l =>
      (v1 ++ names).map (fun l' => s (net.pos l) (net.pos l')))) := by
    by_cases hne : v1 ++ names = []
    · have htop : net.top = [] := by
        rcases List.eq_nil_or_concat net.top with h | ⟨_, x, h⟩
        · exact h
        · exfalso
          have hx : x ∈ net.top := by rw [h]; simp
          have : x ∈ v1 ++ names := by
            by_cases hxn : x ∈ names
            · exact List.mem_append_right _ hxn
            · apply List.mem_append_left
              rw [hv1]; exact ((hsd net.top names).2 x).2 ⟨hx, hxn⟩
          rw [hne] at this; simp at this
      rw [hne, getSigma_all hw hs (Or.inr rfl), htop]
    · exact getSigma_some hs hne hvmem
  unfold GNet.inference
  simp only [← hv1]
  rw [hM]
  simp only
  rw [hS]
  simp only
  have e1 : ((v1 ++ names).map (fun l => mu (net.pos l))).take v1.length =
      v1.map (fun l => mu (net.pos l)) := by
    rw [List.map_append, List.take_left' (by simp)]
  have e2 : ((v1 ++ names).map (fun l => mu (net.pos l))).drop v1.length =
      names.map (fun l => mu (net.pos l)) := by
    rw [List.map_append, List.drop_left' (by simp)]
  have t1 : ((v1 ++ names).map (fun l => (v1 ++ names).map (fun l' => s (net.pos l) (net.pos l')))).take
      v1.length = v1.map (fun l => (v1 ++ names).map (fun l' => s (net.pos l) (net.pos l'))) := by
    rw [List.map_append, List.take_left' (by simp)]
  have t2 : ((v1 ++ names).map (fun l => (v1 ++ names).map (fun l' => s (net.pos l) (net.pos l')))).drop
      v1.length = names.map (fun l => (v1 ++ names).map (fun l' => s (net.pos l) (net.pos l'))) := by
    rw [List.map_append, List.drop_left' (by simp)]
  have r1 : ∀ l, ((v1 ++ names).map (fun l' => s (net.pos l) (net.pos l'))).take v1.length =
      v1.map (fun l' => s (net.pos l) (net.pos l')) := by
    intro l; rw [List.map_append, List.take_left' (by simp)]
  have r2 : ∀ l, ((v1 ++ names).map (fun l' => s (net.pos l) (net.pos l'))).drop v1.length =
      names.map (fun l' => s (net.pos l) (net.pos l')) := by
    intro l; rw [List.map_append, List.drop_left' (by simp)]
  rw [e1, e2, t1, t2]
  simp only [List.map_map, Function.comp_def, r1, r2]
  have hblk : names.map (fun l => names.map (fun l' => s (net.pos l) (net.pos l'))) =
    net.block s names := rfl
  rw [hblk]
  obtain ⟨inv, hinv⟩ : ∃ inv, inv = pinv (net.block s names) := ⟨_, rfl⟩
  rw [← hinv] at hpr hpc ⊢
  have hd : evidenceDiff ev (names.map (fun l => mu (net.pos l))) =
      .ok (List.zipWith (· - ·) ev (names.map (fun l => mu (net.pos l)))) := by
    unfold evidenceDiff
    rw [if_pos (by simp [hev])]
  rw [hd]
  simp only [Except.ok.injEq, Prod.mk.injEq]
  constructor
  · -- the mean
    have hdl : (List.zipWith (· - ·) ev (names.map (fun l => mu (net.pos l)))).length =
        names.length := by simp [hev]
    have hdg : ∀ b : Fin names.length,
        (List.zipWith (· - ·) ev (names.map (fun l => mu (net.pos l)))).getD b 0 =
          ev.getD b 0 - mu (net.pos names[b]) := by
      intro b
      rw [List.getD_eq_getElem?_getD, List.getElem?_zipWith, List.getElem?_map,
        List.getElem?_eq_getElem b.2, List.getD_eq_getElem?_getD,
        List.getElem?_eq_getElem (l := ev) (by rw [hev]; exact b.2)]
      rfl
    have hin : matVec inv (List.zipWith (· - ·) ev (names.map (fun l => mu (net.pos l)))) =
        inv.map (fun r => ∑ b : Fin names.length, r.getD b 0 *
          (ev.getD b 0 - mu (net.pos names[b]))) := by
      have := matVec_map inv id (n := names.length) hpc _ hdl
      rw [List.map_id] at this
      rw [this]
      simp only [id, hdg]
    rw [hin, matVec_map v1 (n := names.length) _ (by intro a _; simp) _ (by simp [hpr])]
    apply List.ext_getElem?
    intro i
    rw [List.getElem?_zipWith, List.getElem?_map, List.getElem?_map, List.getElem?_map]
    cases v1[i]? with
    | none => rfl
    | some l =>
      simp only [Option.map_some, Option.some.injEq]
      congr 1
      apply Finset.sum_congr rfl
      intro a _
      congr 1
      · rw [List.getD_eq_getElem?_getD, List.getElem?_map, List.getElem?_eq_getElem a.2]; rfl
      · rw [List.getD_eq_getElem?_getD, List.getElem?_map,
          List.getElem?_eq_getElem (by rw [hpr]; exact a.2)]
        simp only [Option.map_some, Option.getD_some]
        apply Finset.sum_congr rfl
        intro b _
        congr 1
        unfold entry
        rw [List.getD_eq_getElem?_getD (l := inv), List.getElem?_eq_getElem (by rw [hpr]; exact a.2)]
        rfl
  · apply list_map_fin
    intro i l hl
    apply list_map_fin
    intro j l' hl'
    rw [entry_grid _ _ _ hl hl', sum_range_fin]
    congr 1
    apply Finset.sum_congr rfl
    intro a _
    rw [entry_grid _ _ _ hl (List.getElem?_eq_getElem a.2), sum_range_fin]
    congr 1
    apply Finset.sum_congr rfl
    intro b _
    rw [entry_grid _ _ _ (List.getElem?_eq_getElem b.2) hl']
    rfl

end

end Verif
