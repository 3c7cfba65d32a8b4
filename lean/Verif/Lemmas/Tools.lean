/-
Lemmas about the model of tools.py.
-/
import Verif.Model.Tools

set_option linter.unusedSectionVars false

namespace Verif

variable {K : Type} [Field K]

theorem resolve_ok {n : ℕ} {x : Endpoint} {i : ℕ} (h : x.resolve n = .ok i) :
    i < n ∧ ∃ z : ℤ, x = .int z ∧ (z = i ∨ z = (i : ℤ) - n) := by
  unfold Endpoint.resolve at h
  split at h
  · rename_i z
    split at h
    · obtain rfl := Except.ok.inj h
      exact ⟨by omega, z, rfl, .inl (by omega)⟩
    · split at h
      · obtain rfl := Except.ok.inj h
        exact ⟨by omega, z, rfl, .inr (by omega)⟩
      · cases h
  · cases h

theorem resolve_int {n : ℕ} {z : ℤ} {i : ℕ} (hi : i < n) (h : z = i ∨ z = (i : ℤ) - n) :
    (Endpoint.int z).resolve n = .ok i := by
  unfold Endpoint.resolve
  simp only
  rcases h with rfl | rfl
  · rw [if_pos ⟨by omega, by omega⟩]; simp
  · rw [if_neg (by omega), if_pos ⟨by omega, by omega⟩]
    congr 1; omega

theorem resolve_error {n : ℕ} {x : Endpoint} {err : PyErr} (h : x.resolve n = .error err) :
    err = .indexError := by
  unfold Endpoint.resolve at h
  split at h
  · split at h
    · cases h
    · split at h
      · cases h
      · exact (Except.error.inj h).symm
  · exact (Except.error.inj h).symm

theorem setOne_get (m : List (List K)) (i j a b : ℕ) :
    ((setOne m i j)[a]?.bind (·[b]?)) =
      if a = i ∧ b = j then (m[a]?.bind (·[b]?)).map (fun _ => 1) else m[a]?.bind (·[b]?) := by
  unfold setOne
  rw [List.getElem?_modify]
  cases hm : m[a]? with
  | none => simp
  | some r =>
    by_cases ha : i = a
    · subst ha
      by_cases hb : b = j
      · subst hb
        simp [List.getElem?_set]
        cases hr : r[b]? with
        | none =>
          have : ¬ b < r.length := by
            intro hlt; rw [List.getElem?_eq_getElem hlt] at hr; cases hr
          simp [this]
        | some y =>
          have : b < r.length := (List.getElem?_eq_some_iff.1 hr).1
          simp [this]
      · have : j ≠ b := fun h => hb h.symm
        simp [hb, this]
    · have : a ≠ i := fun h => ha h.symm
      simp [ha, this]

theorem setOne_shape {m : List (List K)} {i j : ℕ} {n : ℕ} (hl : m.length = n)
    (hr : ∀ r ∈ m, r.length = n) :
    (setOne m i j).length = n ∧ ∀ r ∈ setOne m i j, r.length = n := by
  unfold setOne
  refine ⟨by rw [List.length_modify, hl], ?_⟩
  intro r hrm
  obtain ⟨k, hk⟩ := List.mem_iff_getElem?.1 hrm
  rw [List.getElem?_modify] at hk
  cases hm : m[k]? with
  | none => rw [hm] at hk; cases hk
  | some r0 =>
    rw [hm] at hk
    simp only [Option.map_eq_map, Option.map_some, Option.some.injEq] at hk
    have := hr r0 (List.mem_of_getElem? hm)
    split at hk <;> · subst hk; simpa using this

/-- The loop of `arcs2adj_mat` from any square matrix. -/
theorem addArcs_spec {n : ℕ} (arcs : List (Endpoint × Endpoint)) {m : List (List K)}
    (hl : m.length = n) (hr : ∀ r ∈ m, r.length = n) :
    (∃ m', arcs.foldlM (addArc n) m = .ok m' ∧ m'.length = n ∧ (∀ r ∈ m', r.length = n) ∧
      (∀ a ∈ arcs, (∃ i, a.1.resolve n = .ok i) ∧ ∃ j, a.2.resolve n = .ok j) ∧
      ∀ i j, i < n → j < n → (m'[i]?.bind (·[j]?)) =
        if (∃ a ∈ arcs, a.1.resolve n = .ok i ∧ a.2.resolve n = .ok j) then some 1
        else m[i]?.bind (·[j]?)) ∨
    (arcs.foldlM (addArc n) m = .error .indexError ∧
      ∃ a ∈ arcs, a.1.resolve n = .error .indexError ∨ a.2.resolve n = .error .indexError) := by
  classical
  induction arcs generalizing m with
  | nil => left; exact ⟨m, rfl, hl, hr, by simp, by simp⟩
  | cons a as ih =>
    rw [List.foldlM_cons]
    cases h1 : a.1.resolve n with
    | error err =>
      obtain rfl := resolve_error h1
      right
      refine ⟨?_, a, by simp, .inl h1⟩
      unfold addArc; rw [h1]; rfl
    | ok i =>
      cases h2 : a.2.resolve n with
      | error err =>
        obtain rfl := resolve_error h2
        right
        refine ⟨?_, a, by simp, .inr h2⟩
        unfold addArc; rw [h1]; simp only [h2]; rfl
      | ok j =>
        have hs : addArc n m a = .ok (setOne m i j) := by unfold addArc; rw [h1]; simp only [h2]
        rw [hs]
        obtain ⟨hl', hr'⟩ := setOne_shape (i := i) (j := j) hl hr
        rcases ih hl' hr' with ⟨m', e1, e2, e3, e4, e5⟩ | ⟨e1, b, hb, e2⟩
        · left
          refine ⟨m', e1, e2, e3, ?_, ?_⟩
          · intro b hb
            rcases List.mem_cons.1 hb with rfl | hb
            · exact ⟨⟨i, h1⟩, j, h2⟩
            · exact e4 b hb
          · intro i' j' hi' hj'
            rw [e5 i' j' hi' hj', setOne_get]
            by_cases hex : ∃ a ∈ as, a.1.resolve n = .ok i' ∧ a.2.resolve n = .ok j'
            · rw [if_pos hex, if_pos]
              obtain ⟨b, hb, hb2⟩ := hex
              exact ⟨b, by simp [hb], hb2⟩
            · rw [if_neg hex]
              by_cases hij : i' = i ∧ j' = j
              · obtain ⟨rfl, rfl⟩ := hij
                rw [if_pos ⟨rfl, rfl⟩, if_pos ⟨a, by simp, h1, h2⟩]
                have hi2 : i' < m.length := by omega
                have hj2 : j' < m[i'].length := by
                  rw [hr _ (List.getElem_mem hi2)]; exact hj'
                simp [hi2, hj2]
              · rw [if_neg hij, if_neg]
                rintro ⟨b, hb, hb1, hb2⟩
                rcases List.mem_cons.1 hb with rfl | hb
                · rw [h1] at hb1; rw [h2] at hb2
                  exact hij ⟨(Except.ok.inj hb1).symm, (Except.ok.inj hb2).symm⟩
                · exact hex ⟨b, hb, hb1, hb2⟩
        · right
          exact ⟨e1, b, by simp [hb], e2⟩

theorem posList_get (nRows nCols : ℕ) (i : ℕ) (h : i < nRows * nCols) :
    (posList nRows nCols)[i]? = some (((i % nCols : ℕ) : ℤ), -((i / nCols : ℕ) : ℤ)) := by
  unfold posList
  induction nRows generalizing i with
  | zero => simp at h
  | succ k ih =>
    have hlen : ∀ k, ((List.range k).flatMap
        (fun (row : ℕ) => (List.range nCols).map (fun (col : ℕ) => ((col : ℤ), -(row : ℤ))))).length = k * nCols := by
      intro k
      simp
    rw [List.range_succ, List.flatMap_append]
    by_cases hi : i < k * nCols
    · rw [List.getElem?_append_left (by rw [hlen]; exact hi)]
      exact ih i hi
    · rw [List.getElem?_append_right (by rw [hlen]; omega), hlen]
      have h1 : i < k * nCols + nCols := by rw [Nat.succ_mul] at h; exact h
      have hc : 0 < nCols := by
        rcases Nat.eq_zero_or_pos nCols with h0 | h0
        · subst h0; simp at h
        · exact h0
      have hd : i / nCols = k := by
        apply Nat.div_eq_of_lt_le
        · omega
        · rw [Nat.succ_mul]; exact h1
      have hm : i % nCols = i - k * nCols := by
        have := Nat.div_add_mod i nCols
        rw [hd, Nat.mul_comm] at this
        omega
      simp only [List.flatMap_cons, List.flatMap_nil, List.append_nil, List.getElem?_map]
      rw [List.getElem?_range (by omega), hd, hm]
      rfl

variable {L β : Type} [DecidableEq L]

theorem dictSet_of_notMem {d : List (L × β)} {k : L} {v : β} (h : k ∉ d.map Prod.fst) :
    dictSet d k v = d ++ [(k, v)] := by
  induction d with
  | nil => rfl
  | cons x d ih =>
    simp only [List.map_cons, List.mem_cons, not_or] at h
    obtain ⟨a, b⟩ := x
    have : ¬ a = k := fun he => h.1 he.symm
    simp only [dictSet, if_neg this, ih h.2, List.cons_append]

theorem assignPos_ok {pos : List β} {xs : List L} {i : ℕ} {d : List (L × β)} (hn : xs.Nodup)
    (hd : ∀ x ∈ xs, x ∉ d.map Prod.fst) (hl : i + xs.length ≤ pos.length) :
    ∃ ps, ps.length = xs.length ∧ (∀ k < xs.length, ps[k]? = pos[i + k]?) ∧
      assignPos pos xs i d = .ok (d ++ xs.zip ps) := by
  induction xs generalizing i d with
  | nil => exact ⟨[], rfl, by simp, by simp [assignPos]⟩
  | cons x xs ih =>
    simp only [List.length_cons] at hl
    have hi : i < pos.length := by omega
    have hp : pos[i]? = some pos[i] := List.getElem?_eq_getElem hi
    rw [List.nodup_cons] at hn
    have hx := dictSet_of_notMem (v := pos[i]) (hd x (by simp))
    obtain ⟨ps, h1, h2, h3⟩ := ih (i := i + 1) (d := dictSet d x pos[i]) hn.2 (by
      intro y hy
      rw [hx]
      simp only [List.map_append, List.map_cons, List.map_nil, List.mem_append, List.mem_singleton,
        not_or]
      refine ⟨hd y (by simp [hy]), ?_⟩
      rintro rfl
      exact hn.1 hy) (by omega)
    refine ⟨pos[i] :: ps, by simp [h1], ?_, ?_⟩
    · intro k hk
      cases k with
      | zero => simp [hp]
      | succ k =>
        simp only [List.length_cons] at hk
        rw [List.getElem?_cons_succ, h2 k (by omega)]
        congr 1; omega
    · simp only [assignPos, hp]
      rw [h3, hx]
      simp

theorem sqrt_pos_of {n : ℕ} (h : n ≠ 0) : 0 < Nat.sqrt n :=
  Nat.sqrt_pos.2 (Nat.pos_of_ne_zero h)

theorem rows_enough {n c : ℕ} (hc : 0 < c) : n ≤ (⌈(n : ℚ) / (c : ℚ)⌉).toNat * c ∧
    (n ≠ 0 → ((⌈(n : ℚ) / (c : ℚ)⌉).toNat - 1) * c < n) := by
  have hcq : (0 : ℚ) < (c : ℚ) := by exact_mod_cast hc
  have h0 : 0 ≤ ⌈(n : ℚ) / (c : ℚ)⌉ := Int.ceil_nonneg (by positivity)
  obtain ⟨r, hr⟩ := Int.eq_ofNat_of_zero_le h0
  have hle := Int.le_ceil ((n : ℚ) / (c : ℚ))
  have hlt := Int.ceil_lt_add_one ((n : ℚ) / (c : ℚ))
  rw [hr] at hle hlt ⊢
  simp only [Int.toNat_natCast, Int.cast_natCast] at *
  constructor
  · rw [div_le_iff₀ hcq] at hle
    exact_mod_cast hle
  · intro hn
    cases r with
    | zero => simp; omega
    | succ r =>
      have : (r : ℚ) < n / c := by push_cast at hlt; linarith
      rw [lt_div_iff₀ hcq] at this
      have h2 : r * c < n := by exact_mod_cast this
      simpa using h2

end Verif
