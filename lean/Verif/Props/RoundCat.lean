/-
C82: the categorical model in IEEE double precision: the learned probabilities are never rejected by
`np.random.choice`, every category is drawn as often as it was observed (up to a tiny error), and runs are safe.
-/
import Verif.Lemmas.RoundCat
import Verif.Props.Categorical
import Mathlib.Order.Interval.Finset.Nat

set_option linter.unusedSectionVars false

namespace Verif

open PyCost Spec

section
variable {K α β L : Type} [LinearOrder α] [Field K] [LinearOrder K] [IsStrictOrderedRing K] [FloorRing K]

local notation "u" => (2 : K) ^ (-53 : ℤ)
local notation "η" => (2 : K) ^ (-1075 : ℤ)

/-! ### Learning -/

/-- `t` is the empirical distribution of the column in double precision: one entry for each observed value (and
no other), with the nearest double to the fraction of the rows that have this value. -/
structure Spec.IsEmpirical64 (col : List β) [DecidableEq β] (t : List (β × K)) : Prop where
  distinct : (t.map Prod.fst).Nodup
  observed : ∀ v, v ∈ t.map Prod.fst ↔ v ∈ col
  double : ∀ v p, (v, p) ∈ t → IsDouble p ∧ 0 ≤ p
  freq : ∀ v p, (v, p) ∈ t → |p - ((col.filter (fun w => w = v)).length : K) / (col.length : K)| ≤
    u * (((col.filter (fun w => w = v)).length : K) / (col.length : K)) + η
  positive : (col.length : K) ≤ 2 ^ 1074 → ∀ v p, (v, p) ∈ t → 0 < p

theorem obtainR_empirical {col : List (Cat α)} {t : List (Cat α × K)} (h : obtainProbabilitiesR fl64 col = .ok t) :
    IsEmpirical64 col t := by
  obtain ⟨t0, h0, rfl⟩ := obtainR_ok h
  have he := obtain_empirical h0
  have hpos := fun v p (hm : (v, p) ∈ t0) => obtain_pos h0 hm
  have hfst : (t0.map (fun x => (x.1, fl64 x.2))).map Prod.fst = t0.map Prod.fst := by
    rw [List.map_map]; rfl
  have hfr : ∀ v p, (v, p) ∈ t0 → 0 < (col.length : K) ∧
      p = ((col.filter (fun w => w = v)).length : K) / (col.length : K) := by
    intro v p hm
    have hv : v ∈ col := (he.observed v).1 (List.mem_map.2 ⟨_, hm, rfl⟩)
    have hl : (0 : K) < col.length := by exact_mod_cast List.length_pos_of_mem hv
    exact ⟨hl, by rw [eq_div_iff hl.ne']; exact he.freq v p hm⟩
  refine ⟨by rw [hfst]; exact he.distinct, fun v => by rw [hfst]; exact he.observed v, ?_, ?_, ?_⟩
  · intro v p hm
    obtain ⟨⟨w, q⟩, hq, e⟩ := List.mem_map.1 hm
    simp only [Prod.mk.injEq] at e
    obtain ⟨rfl, rfl⟩ := e
    refine ⟨fl64_double _, ?_⟩
    have := fl64_mono (hpos w q hq).le; rwa [fl64_zero] at this
  · intro v p hm
    obtain ⟨⟨w, q⟩, hq, e⟩ := List.mem_map.1 hm
    simp only [Prod.mk.injEq] at e
    obtain ⟨rfl, rfl⟩ := e
    rw [← (hfr w q hq).2]
    have := fl64_error q
    rwa [abs_of_pos (hpos w q hq)] at this
  · intro hlen v p hm
    obtain ⟨⟨w, q⟩, hq, e⟩ := List.mem_map.1 hm
    simp only [Prod.mk.injEq] at e
    obtain ⟨rfl, rfl⟩ := e
    obtain ⟨hl, hqe⟩ := hfr w q hq
    have hw : w ∈ col := (he.observed w).1 (List.mem_map.2 ⟨_, hq, rfl⟩)
    have h1 : (1 : K) ≤ ((col.filter (fun x => x = w)).length : K) := by
      exact_mod_cast List.length_pos_of_mem (List.mem_filter.2 ⟨hw, by simp⟩)
    have h2 : (2 : K) ^ (-1074 : ℤ) ≤ q := by
      rw [hqe, zpow_neg, ← one_div]
      exact div_le_div₀ (by linarith) h1 hl (by exact_mod_cast hlen)
    have h3 := fl64_mono h2
    rw [fl64_fix (isDouble_pow _ le_rfl)] at h3
    exact lt_of_lt_of_le (two_zpow_pos _) h3

/-- **C82** In double precision `learn` stores, for every variable, the nearest double to the relative frequency
of each observed value. -/
theorem C82_learn [DecidableEq L] {c c' : UniCat L α K} {data : Gen (List (Cat α))} (hn : c.vars.Nodup)
    (h : c.learnR fl64 data = .ok c') : c'.vars = c.vars ∧ ∀ k l, c.vars[k]? = some l →
      ∃ t, c'.table l = some t ∧ IsEmpirical64 (column data.rows k) t := by
  obtain ⟨h1, _, h3, _⟩ := UniCat.learnR_ok hn h
  refine ⟨h1, fun k l hk => ?_⟩
  obtain ⟨t, ht, ho⟩ := h3 k l hk
  exact ⟨t, ht, obtainR_empirical ho⟩

/-- The exact probabilities behind a learned table. -/
theorem obtainR_parts {col : List (Cat α)} {t : List (Cat α × K)} (h : obtainProbabilitiesR fl64 col = .ok t)
    (hne : col ≠ []) : ∃ q : List K, t.map Prod.snd = q.map fl64 ∧ (∀ x ∈ q, 0 ≤ x) ∧ q.sum = 1 ∧
      q.length = t.length ∧ ∀ (i : ℕ) v, (t.map Prod.fst)[i]? = some v →
        q[i]? = some (((col.filter (fun w => w = v)).length : K) / (col.length : K)) := by
  obtain ⟨t0, h0, rfl⟩ := obtainR_ok h
  have he := obtain_empirical h0
  have hl : (0 : K) < col.length := by exact_mod_cast List.length_pos_iff.2 hne
  refine ⟨t0.map Prod.snd, by simp [Function.comp_def], ?_, obtain_sum h0 hne, by simp, ?_⟩
  · intro x hx
    obtain ⟨⟨v, p⟩, hp, rfl⟩ := List.mem_map.1 hx
    exact (obtain_pos h0 hp).le
  · intro i v hi
    rw [List.map_map, List.getElem?_map] at hi
    rw [List.getElem?_map]
    cases hx : t0[i]? with
    | none => rw [hx] at hi; simp at hi
    | some x =>
      rw [hx] at hi
      simp only [Option.map_some, Function.comp_apply, Option.some.injEq] at hi ⊢
      subst hi
      rw [eq_div_iff hl.ne']
      exact he.freq x.1 x.2 (List.mem_of_getElem? hx)

theorem probList_round {q : List K} (hq : ∀ x ∈ q, 0 ≤ x) : ProbList (q.map fl64) := by
  intro x hx
  obtain ⟨y, hy, rfl⟩ := List.mem_map.1 hx
  refine ⟨?_, fl64_double _⟩
  have := fl64_mono (hq y hy); rwa [fl64_zero] at this

theorem sum_round_close {q : List K} (hq : ∀ x ∈ q, 0 ≤ x) (h1 : q.sum = 1) (hl : q.length ≤ 2 ^ 50) :
    |(q.map fl64).sum - 1| ≤ 1 / 2 ^ 27 := by
  have h := sum_round_error q hq
  rw [h1, mul_one] at h
  refine h.trans ((add_le_add le_rfl (eta_small hl)).trans ?_)
  rw [u_val]; norm_num

/-- **C82** `np.random.choice` accepts what `learn` stored: with up to `2^21` categories the compensated sum of
the rounded frequencies is within its tolerance of 1. -/
theorem C82_accepted {col : List (Cat α)} {t : List (Cat α × K)} (h : obtainProbabilitiesR fl64 col = .ok t)
    (hne : col ≠ []) (hl : t.length ≤ 2 ^ 21) :
    ProbList (t.map Prod.snd) ∧ |fl64 (kahanSum fl64 (t.map Prod.snd) - 1)| ≤ 1 / 2 ^ 26 := by
  obtain ⟨q, e, h0, h1, hql, _⟩ := obtainR_parts h hne
  rw [e]
  have hp := probList_round h0
  exact ⟨hp, kahan_accepts hp (by rw [List.length_map, hql]; exact hl)
    (sum_round_close h0 h1 (by rw [hql]; exact hl.trans (by norm_num)))⟩

/-- **C82** After `learn` on at least one row with at most `2^21` different values per column, `sample` succeeds
for every size, and every sampled value was observed in the column of its variable. -/
theorem C82_sample_after_learn [DecidableEq L] {c c' : UniCat L α K} {data : Gen (List (Cat α))}
    (hn : c.vars.Nodup) (hv : c.vars ≠ []) (hr : Rect data.cols data.rows) (hne : data.rows ≠ [])
    (hcat : ∀ k < c.vars.length, (column data.rows k).dedup.length ≤ 2 ^ 21)
    (h : c.learnR fl64 data = .ok c') {size : ℤ} (hsz : 0 ≤ size) {ω : Draws K} (hω : Unit01 ω) :
    ∃ g, c'.sampleR fl64 size ω = .ok g ∧ (g.rows.length : ℤ) = size ∧ Rect c.vars.length g.rows ∧
      ∀ r ∈ g.rows, ∀ (j : ℕ) v, r[j]? = some v → v ∈ column data.rows j := by
  obtain ⟨h1, h2, h3, _⟩ := UniCat.learnR_ok hn h
  have hcol : ∀ k < c.vars.length, column data.rows k ≠ [] := by
    intro k hk h0
    obtain ⟨r, rs, hrs⟩ := List.exists_cons_of_ne_nil hne
    have hrl := hr r (by rw [hrs]; simp)
    have : r[k]? ≠ none := by
      rw [Ne, List.getElem?_eq_none_iff]; omega
    unfold column at h0
    rw [List.filterMap_eq_nil_iff] at h0
    exact this (h0 r (by rw [hrs]; simp))
  obtain ⟨g, hg⟩ := UniCat.sampleR_isOk (c := c') hsz hω (by rw [h1]; exact hn) (by rw [h1]; exact hv)
    (by
      intro l hl
      rw [h1] at hl
      obtain ⟨k, hk⟩ := List.mem_iff_getElem?.1 hl
      have hkl := (List.getElem?_eq_some_iff.1 hk).1
      obtain ⟨t, ht, ho⟩ := h3 k l hk
      obtain ⟨t0, h0, e0⟩ := obtainR_ok ho
      have hfst : t.map Prod.fst = npUnique (column data.rows k) := by
        rw [e0, List.map_map, ← obtain_keys h0]; rfl
      have hlen : t.length ≤ 2 ^ 21 := by
        have : t.length = (npUnique (column data.rows k)).length := by rw [← hfst, List.length_map]
        rw [this, (npUnique_perm _).length_eq]
        exact hcat k hkl
      obtain ⟨a1, a2⟩ := C82_accepted ho (hcol k hkl) hlen
      refine ⟨t, ht, ?_, a1, a2⟩
      rw [hfst]
      have hm : ∀ v ∈ npUnique (column data.rows k), v ∈ column data.rows k := fun v hv =>
        List.mem_dedup.1 ((npUnique_perm _).mem_iff.1 hv)
      rcases (obtain_ok h0).1 with hs | hs
      · exact .inl fun v hv => hs v (hm v hv)
      · exact .inr fun v hv => hs v (hm v hv))
  obtain ⟨_, _, g1, g2, g3, _, g4⟩ := UniCat.sampleR_ok hg
  rw [h1] at g1 g3
  refine ⟨g, hg, g2, g3, ?_⟩
  intro r hr' j v hj
  have hjl : j < c.vars.length := by
    rw [← g3 r hr']; exact (List.getElem?_eq_some_iff.1 hj).1
  obtain ⟨t, ht, _, hs, _⟩ := g4 j _ (by rw [h1]; exact List.getElem?_eq_getElem hjl)
  obtain ⟨t', ht', ho⟩ := h3 j _ (List.getElem?_eq_getElem hjl)
  rw [ht] at ht'
  obtain rfl := Option.some.inj ht'
  have he := obtainR_empirical ho
  obtain ⟨q, hq, _⟩ := hs hω (by
    intro x hx
    obtain ⟨⟨w, p⟩, hp, rfl⟩ := List.mem_map.1 hx
    exact (he.double w p hp).1) r hr' v hj
  exact (he.observed v).1 (List.mem_map.2 ⟨_, hq, rfl⟩)

/-! ### `np.random.choice` -/

/-- **C82** The cumulative distribution `np.random.choice` computes does not decrease, stays in `[0, 1]` and ends
with exactly 1, so that every draw below 1 finds a position. -/
theorem C82_cdf {p : List K} (hp : ProbList p) (hs : |fl64 (kahanSum fl64 p - 1)| ≤ 1 / 2 ^ 26) :
    (cdfR fl64 p).Pairwise (· ≤ ·) ∧ (∀ c ∈ cdfR fl64 p, 0 ≤ c ∧ c ≤ 1) ∧ (cdfR fl64 p)[p.length - 1]? = some 1 :=
  ⟨cdfR_sorted hp (kahan_pos hp hs), cdfR_unit hp (kahan_pos hp hs), cdfR_last hp (kahan_pos hp hs)⟩

/-- **C82** Whatever probabilities `np.random.choice` accepts, it returns as many values as asked for, and only
values with positive probability. -/
theorem C82_choice {vals : List β} {p : List K} {size : ℤ} {x : ℕ → K} {col : List β}
    (h : npChoiceR fl64 vals p size x = .ok col) (hd : ∀ y ∈ p, IsDouble y) (hx : ∀ i, 0 ≤ x i ∧ x i < 1) :
    (col.length : ℤ) = size ∧ ∀ v ∈ col, ∃ (i : ℕ) (q : K), vals[i]? = some v ∧ p[i]? = some q ∧ 0 < q := by
  obtain ⟨h0, _, _, _, h1, _⟩ := npChoiceR_ok h
  exact ⟨by rw [h1]; omega, fun v hv => npChoiceR_values h hd hx hv⟩

open Classical in
/-- The share of the numbers `0, 1/M, …, (M-1)/M` that satisfy `P`. -/
noncomputable def Spec.gridShare (M : ℕ) (P : K → Prop) : K :=
  (((Finset.range M).filter (fun n : ℕ => P ((n : K) / M))).card : K) / M

/-- The share of the `2^53` equally likely values `0, 1/2^53, …` of a uniform draw (`np.random.random`) that
satisfy `P`. -/
noncomputable def Spec.drawShare (P : K → Prop) : K := gridShare (2 ^ 53) P

theorem gridShare_interval (M : ℕ) (hM : 0 < M) {a b : K} (h0 : 0 ≤ a) (hab : a ≤ b) (h1 : b ≤ 1) :
    |gridShare M (fun x => a ≤ x ∧ x < b) - (b - a)| ≤ 1 / M := by
  classical
  have hM' : (0 : K) < M := by exact_mod_cast hM
  have hset : (Finset.range M).filter (fun n : ℕ => a ≤ (n : K) / M ∧ (n : K) / M < b) =
      Finset.Ico ⌈a * M⌉₊ ⌈b * M⌉₊ := by
    ext n
    simp only [Finset.mem_filter, Finset.mem_range, Finset.mem_Ico, Nat.ceil_le, Nat.lt_ceil]
    rw [le_div_iff₀ hM', div_lt_iff₀ hM']
    constructor
    · exact fun h => h.2
    · refine fun h => ⟨?_, h⟩
      have : (n : K) < M := lt_of_lt_of_le h.2 (by nlinarith)
      exact_mod_cast this
  have hle : ⌈a * M⌉₊ ≤ ⌈b * M⌉₊ := Nat.ceil_mono (mul_le_mul_of_nonneg_right hab hM'.le)
  have hg : gridShare M (fun x : K => a ≤ x ∧ x < b) = ((⌈b * M⌉₊ : K) - ⌈a * M⌉₊) / M := by
    unfold gridShare
    rw [← Nat.cast_sub hle, ← Nat.card_Ico, ← hset]
    congr
  have a1 := Nat.le_ceil (a * M)
  have a2 := Nat.ceil_lt_add_one (mul_nonneg h0 hM'.le)
  have b1 := Nat.le_ceil (b * M)
  have b2 := Nat.ceil_lt_add_one (mul_nonneg (h0.trans hab) hM'.le)
  rw [hg, show ∀ z : K, z / M - (b - a) = (z - (b - a) * M) / M from fun z => by field_simp, abs_div,
    abs_of_pos hM']
  refine div_le_div_of_nonneg_right ?_ hM'.le
  rw [abs_le]
  constructor <;> nlinarith

theorem drawShare_interval {a b : K} (h0 : 0 ≤ a) (hab : a ≤ b) (h1 : b ≤ 1) :
    |drawShare (fun x => a ≤ x ∧ x < b) - (b - a)| ≤ u := by
  have h := gridShare_interval (2 ^ 53) (by positivity) h0 hab h1
  unfold drawShare
  rw [u_val]
  refine h.trans (le_of_eq ?_)
  rw [Nat.cast_pow, Nat.cast_ofNat]

theorem gridShare_congr (M : ℕ) {P Q : K → Prop} (h : ∀ x, 0 ≤ x → x < 1 → (P x ↔ Q x)) :
    gridShare M P = gridShare M Q := by
  classical
  rcases Nat.eq_zero_or_pos M with rfl | hM
  · simp [gridShare]
  have hM' : (0 : K) < M := by exact_mod_cast hM
  unfold gridShare
  rw [Finset.filter_congr (q := fun n : ℕ => Q ((n : K) / M))]
  intro n hn
  refine h _ (by positivity) ?_
  rw [div_lt_one hM']
  exact_mod_cast Finset.mem_range.1 hn

theorem gridShare_zero {M : ℕ} {P : K → Prop} (h : ∀ n < M, ¬ P ((n : K) / M)) : gridShare M P = 0 := by
  classical
  unfold gridShare
  rw [Finset.filter_false_of_mem, Finset.card_empty, Nat.cast_zero, zero_div]
  intro n hn
  exact h n (Finset.mem_range.1 hn)

/-- **C82** Every observed value is returned for a share of the possible draws that equals its relative frequency
up to `(k + 2) · 2^-50`, for `k` different values. -/
theorem C82_share {col : List (Cat α)} {t : List (Cat α × K)} (h : obtainProbabilitiesR fl64 col = .ok t)
    (hne : col ≠ []) (hl : t.length ≤ 2 ^ 49) {v : Cat α} (hv : v ∈ col) :
    |drawShare (fun x => pickValR fl64 (t.map Prod.fst) (t.map Prod.snd) x = .ok v) -
      ((col.filter (fun w => w = v)).length : K) / (col.length : K)| ≤ (t.length + 2) * 2 ^ (-50 : ℤ) := by
  have he := obtainR_empirical h
  obtain ⟨q, eq, hq0, hq1, hql, hqv⟩ := obtainR_parts h hne
  have hp : ProbList (t.map Prod.snd) := by rw [eq]; exact probList_round hq0
  have hql' : q.length ≤ 2 ^ 50 := by rw [hql]; exact hl.trans (by norm_num)
  have hpos : 0 < (t.map Prod.snd).sum := by
    have h1 := sum_round_close hq0 hq1 hql'
    rw [← eq] at h1
    have h2 := (abs_le.1 h1).1
    have h3 : (1 : K) / 2 ^ 27 < 1 := by norm_num
    linarith
  obtain ⟨i, hi⟩ := List.mem_iff_getElem?.1 ((he.observed v).2 hv)
  have hil : i < t.length := by
    have := (List.getElem?_eq_some_iff.1 hi).1; rwa [List.length_map] at this
  have hqi := hqv i v hi
  have hcl : (cdfR fl64 (t.map Prod.snd)).length = t.length := by rw [cdfR_length, List.length_map]
  have hci : (cdfR fl64 (t.map Prod.snd))[i]? = some ((cdfR fl64 (t.map Prod.snd))[i]'(by omega)) :=
    List.getElem?_eq_getElem (by omega)
  set b := (cdfR fl64 (t.map Prod.snd))[i]'(by omega) with hb
  have hb01 := cdfR_unit hp hpos b (List.mem_of_getElem? hci)
  have hbe := cdfR_round_error hq0 hq1 hql' (by rw [← eq]; exact hci)
  -- the lower end of the interval
  obtain ⟨a, ha0, hab, hae, hal⟩ : ∃ a : K, 0 ≤ a ∧ a ≤ b ∧ |a - (q.take i).sum| ≤ (q.length + 1) * 2 ^ (-51 : ℤ) ∧
      ∀ x : K, 0 ≤ x → (a ≤ x ↔ ∀ j < i, ∀ d, (cdfR fl64 (t.map Prod.snd))[j]? = some d → d ≤ x) := by
    cases hi0 : i with
    | zero =>
      refine ⟨0, le_rfl, hb01.1, ?_, fun x hx => ⟨fun _ j hj => absurd hj (by omega), fun _ => hx⟩⟩
      simp only [List.take_zero, List.sum_nil, sub_zero, abs_zero]
      have := two_zpow_pos (K := K) (-51)
      positivity
    | succ j =>
      have hj : (cdfR fl64 (t.map Prod.snd))[j]? = some ((cdfR fl64 (t.map Prod.snd))[j]'(by omega)) :=
        List.getElem?_eq_getElem (by omega)
      have hsort := List.pairwise_iff_getElem.1 (cdfR_sorted hp hpos)
      refine ⟨_, (cdfR_unit hp hpos _ (List.mem_of_getElem? hj)).1, hsort j i (by omega) (by omega) (by omega),
        cdfR_round_error hq0 hq1 hql' (by rw [← eq]; exact hj), ?_⟩
      intro x _
      constructor
      · intro hx k hk d hd
        obtain ⟨hkl, rfl⟩ := List.getElem?_eq_some_iff.1 hd
        rcases (show k ≤ j by omega).eq_or_lt with rfl | hkj
        · exact hx
        · exact (hsort k j hkl (by omega) hkj).trans hx
      · intro hx
        exact hx j (by omega) _ hj
  have hiff : ∀ x : K, 0 ≤ x → x < 1 →
      (pickValR fl64 (t.map Prod.fst) (t.map Prod.snd) x = .ok v ↔ a ≤ x ∧ x < b) := by
    intro x hx0 hx1
    have hidx := (pickR_exists hp hpos hx0 hx1).1
    rw [List.length_map] at hidx
    rw [hal x hx0]
    have key : pickValR fl64 (t.map Prod.fst) (t.map Prod.snd) x = .ok v ↔
        (cdfR fl64 (t.map Prod.snd)).findIdx (fun c => decide (x < c)) = i := by
      unfold pickValR
      rw [List.getElem?_eq_getElem (by rw [List.length_map]; exact hidx)]
      constructor
      · intro hok
        have hok := Except.ok.inj hok
        obtain ⟨hi1, hi2⟩ := List.getElem?_eq_some_iff.1 hi
        exact (List.Nodup.getElem_inj_iff he.distinct).1 (hok.trans hi2.symm)
      · intro hi'
        obtain ⟨hi1, hi2⟩ := List.getElem?_eq_some_iff.1 hi
        subst hi'
        rw [hi2]
    rw [key]
    constructor
    · intro hi'
      obtain ⟨c, hc, hxc, hj⟩ := pickR_iff.1 ⟨hi', by rw [List.length_map]; exact hil⟩
      rw [hci] at hc
      obtain rfl := Option.some.inj hc
      exact ⟨hj, hxc⟩
    · rintro ⟨hj, hxc⟩
      exact (pickR_iff.2 ⟨b, hci, hxc, hj⟩).1
  have hcongr := gridShare_congr (2 ^ 53) hiff
  unfold drawShare
  rw [hcongr]
  change |drawShare _ - _| ≤ _
  have hs := drawShare_interval ha0 hab hb01.2
  have hsum : (q.take (i + 1)).sum = (q.take i).sum +
      ((col.filter (fun w => w = v)).length : K) / (col.length : K) := by
    obtain ⟨hiq, hqe⟩ := List.getElem?_eq_some_iff.1 hqi
    rw [List.sum_take_succ q i hiq, hqe]
  rw [hsum] at hbe
  rw [hql] at hbe hae
  have e50 : (2 : K) ^ (-50 : ℤ) = 8 * u := by
    rw [show (-50 : ℤ) = -53 + 3 by norm_num, zpow_add₀ (by norm_num)]; norm_num
  have e51 : (2 : K) ^ (-51 : ℤ) = 4 * u := by
    rw [show (-51 : ℤ) = -53 + 2 by norm_num, zpow_add₀ (by norm_num)]; norm_num
  rw [e51] at hbe hae
  rw [e50]
  have hu0 := u_pos (K := K)
  generalize drawShare (fun x : K => a ≤ x ∧ x < b) = D at *
  generalize ((col.filter (fun w => w = v)).length : K) / (col.length : K) = F at *
  generalize (q.take i).sum = Q at *
  generalize (2 : K) ^ (-53 : ℤ) = w at *
  rw [abs_le] at *
  constructor <;> nlinarith

/-- **C82** As long as the number of rows times the number of different values stays below `2^50`, no observed value
is lost: some possible draw returns it. -/
theorem C82_no_value_lost {col : List (Cat α)} {t : List (Cat α × K)} (h : obtainProbabilitiesR fl64 col = .ok t)
    {v : Cat α} (hv : v ∈ col) (hl : col.length * (t.length + 2) < 2 ^ 50) :
    ∃ n : ℕ, n < 2 ^ 53 ∧ pickValR fl64 (t.map Prod.fst) (t.map Prod.snd) ((n : K) / 2 ^ 53) = .ok v := by
  classical
  have hne : col ≠ [] := List.ne_nil_of_mem hv
  have hc1 : 1 ≤ col.length := List.length_pos_of_mem hv
  have ht : t.length ≤ 2 ^ 49 := by
    have he := obtainR_empirical h
    have h1 : t.length ≤ col.length := by
      rw [← List.length_map (f := Prod.fst) (as := t)]
      exact (List.subperm_of_subset he.distinct (fun x hx => (he.observed x).1 hx)).length_le
    nlinarith
  have hs := C82_share h hne ht hv
  by_contra hcon
  push Not at hcon
  have h0 : drawShare (fun x : K => pickValR fl64 (t.map Prod.fst) (t.map Prod.snd) x = .ok v) = 0 := by
    refine gridShare_zero fun n hn => ?_
    have := hcon n hn
    rw [Nat.cast_pow, Nat.cast_ofNat]
    exact this
  rw [h0, zero_sub, abs_neg] at hs
  have hcl : (0 : K) < col.length := by exact_mod_cast hc1
  have h1 : (1 : K) ≤ ((col.filter (fun x => x = v)).length : K) := by
    exact_mod_cast List.length_pos_of_mem (List.mem_filter.2 ⟨hv, by simp⟩)
  have h2 : (1 : K) / col.length ≤ (t.length + 2) * 2 ^ (-50 : ℤ) :=
    (div_le_div_of_nonneg_right h1 hcl.le).trans ((le_abs_self _).trans hs)
  have h3 : (col.length : K) * (t.length + 2) < 2 ^ 50 := by exact_mod_cast hl
  rw [div_le_iff₀ hcl, zpow_neg] at h2
  have h4 : (2 : K) ^ (50 : ℤ) = 2 ^ 50 := by norm_cast
  rw [h4] at h2
  have h5 : ((t.length : K) + 2) * ((2 : K) ^ 50)⁻¹ * col.length = col.length * (t.length + 2) / 2 ^ 50 := by
    field_simp
  rw [h5, le_div_iff₀ (by positivity)] at h2
  linarith

/-! ### Without rounding: the model of `Verif/Model/Categorical.lean` -/

theorem kahanLoop_id : ∀ (ps : List K) (s : K), kahanLoop id s 0 ps = s + ps.sum
  | [], s => by simp [kahanLoop]
  | p :: ps, s => by
    unfold kahanLoop
    simp only [id, sub_zero, add_sub_cancel_left, sub_self]
    have := kahanLoop_id ps (s + p)
    rw [this, List.sum_cons, add_assoc]

theorem kahanSum_id (p : List K) : kahanSum id p = p.sum := by
  cases p with
  | nil => rfl
  | cons a p => rw [kahanSum, kahanLoop_id, List.sum_cons]

theorem cumR_id_last : ∀ (p : List K) (s d : K), p ≠ [] → (cumR id s p).getLastD d = s + p.sum
  | [], _, _, h => absurd rfl h
  | [a], s, d, _ => by simp [cumR]
  | a :: b :: p, s, d, _ => by
    have := cumR_id_last (b :: p) (s + a) (s + a) (by simp)
    unfold cumR
    simp only [id] at this ⊢
    rw [List.getLastD_cons, this]
    simp only [List.sum_cons]; ring

theorem pick_id (total x : K) : ∀ (p : List K) (s : K),
    ((cumR id s p).map (fun y => y / total)).findIdx (fun c => decide (x < c)) = pickFrom total s x p
  | [], s => rfl
  | a :: p, s => by
    unfold cumR pickFrom
    rw [List.map_cons, List.findIdx_cons]
    simp only [id]
    have := pick_id total x p (s + a)
    rw [this]
    by_cases h : x < (s + a) / total
    · simp [h]
    · simp [h]

theorem pickValR_id (vals : List β) (p : List K) (x : K) : pickValR id vals p x = pickVal vals p x := by
  unfold pickValR pickVal cdfR
  cases p with
  | nil => rfl
  | cons a p =>
    rw [cumR_id_last (a :: p) 0 0 (by simp), zero_add]
    have := pick_id (a :: p).sum x (a :: p) 0
    simp only [id] at this ⊢
    rw [this]
    cases vals[pickFrom (a :: p).sum 0 x (a :: p)]? <;> rfl

theorem npChoiceR_id (vals : List β) (p : List K) (size : ℤ) (x : ℕ → K) :
    npChoiceR id vals p size x = npChoice vals p size x := by
  unfold npChoiceR npChoice
  simp only [kahanSum_id, pickValR_id, id]

theorem learnCatsR_id [DecidableEq L] (data : Gen (List (Cat α))) : ∀ (ls : List L) (i : ℕ)
    (tbl : L → Option (List (Cat α × K))), learnCatsR id data i ls tbl = learnCats data i ls tbl
  | [], _, _ => rfl
  | l :: ls, i, tbl => by
    unfold learnCatsR learnCats
    have h : obtainProbabilitiesR (K := K) id (data.rows.filterMap (fun r => r[i]?)) =
        obtainProbabilities (data.rows.filterMap (fun r => r[i]?)) := by
      rw [obtainR_eq]
      cases obtainProbabilities (K := K) (data.rows.filterMap (fun r => r[i]?)) with
      | error e => rfl
      | ok t => simp [Except.map]
    rw [h]
    simp only [learnCatsR_id data ls]
    cases obtainProbabilities (K := K) (data.rows.filterMap (fun r => r[i]?)) <;> rfl

theorem checkVarR_id {order : ℕ → SumTree} (ho : SumsAll order) (s : CatSpace α K) (i : ℕ) :
    s.checkVarR id order i = s.checkVar i := by
  have hs : ∀ p : List K, (order p.length).eval id (fun k => p.getD k 0) = p.sum := by
    intro p
    have hev : ∀ t : SumTree, t.eval id (fun k => p.getD k 0) = (t.leaves.map (fun k => p.getD k 0)).sum := by
      intro t
      induction t with
      | zero => rfl
      | leaf i => simp [SumTree.eval, SumTree.leaves]
      | add l r ihl ihr => simp only [SumTree.eval, SumTree.leaves, ihl, ihr, id, List.map_append, List.sum_append]
    rw [hev, ((ho p.length).map _).sum_eq]
    congr 1
    apply List.ext_getElem
    · simp
    · intro j h1 h2
      simp [h2]
  unfold CatSpace.checkVarR CatSpace.checkVar
  simp only [hs, id]
  cases s.vals[i]? <;> cases s.freq[i]? <;> rfl

theorem UniCat.learnR_id [DecidableEq L] (c : UniCat L α K) (data : Gen (List (Cat α))) :
    c.learnR id data = c.learn data := by
  unfold UniCat.learnR UniCat.learn
  rw [learnCatsR_id]
  cases learnCats data 0 c.vars c.table <;> rfl

theorem UniCat.sampleColR_id (c : UniCat L α K) (size : ℤ) (ω : Draws K) (j : ℕ) (l : L) :
    c.sampleColR id size ω j l = c.sampleCol size ω j l := by
  unfold UniCat.sampleColR UniCat.sampleCol
  cases c.table l with
  | none => rfl
  | some t =>
    simp only [npChoiceR_id]
    cases listDType (t.map Prod.fst) with
    | error err => rfl
    | ok dt =>
      simp only
      cases npChoice (t.map Prod.fst) (t.map Prod.snd) size (fun i => ω i j) <;> rfl

theorem UniCat.sampleR_id [DecidableEq L] (c : UniCat L α K) (size : ℤ) (ω : Draws K) :
    c.sampleR id size ω = c.sample size ω := by
  unfold UniCat.sampleR UniCat.sample
  simp only [UniCat.sampleColR_id]
  by_cases h : c.vars.Nodup
  · rw [if_neg (not_not.2 h), if_neg (not_not.2 h)]
    cases (c.vars.zipIdx).mapM (fun li => c.sampleCol size ω li.2 li.1) <;> rfl
  · rw [if_pos h, if_pos h]

theorem CatSpace.sampleR_id (s : CatSpace α K) (n : ℕ) (size : ℤ) (ω : Draws K) :
    s.sampleR id n size ω = s.sample n size ω := by
  have hcol : s.sampleColR id size ω = s.sampleCol size ω := by
    funext i
    unfold CatSpace.sampleColR CatSpace.sampleCol
    cases s.vals[i]? with
    | none => rfl
    | some v =>
      cases s.freq[i]? with
      | none => rfl
      | some p =>
        simp only [npChoiceR_id]
        cases (if s.objArr then .ok .object else listDType v : Except PyErr DType) with
        | error err => rfl
        | ok dt =>
          simp only
          cases npChoice v p size (fun k => ω k i) <;> rfl
  unfold CatSpace.sampleR CatSpace.sample
  rw [hcol]
  cases (List.range n).mapM (s.sampleCol size ω) <;> rfl

theorem CatSpace.checkR_id {order : ℕ → SumTree} (ho : SumsAll order) (s : CatSpace α K) (n : ℕ) :
    s.checkR id order n = s.check n := by
  have h : s.checkVarR id order = s.checkVar := funext fun i => checkVarR_id ho s i
  unfold CatSpace.checkR CatSpace.check
  rw [h]
  cases (List.range n).mapM s.checkVar <;> rfl

/-- **C82** Without rounding these functions are those of the other properties of `UniCategorical` and `UMDAcat`. -/
theorem C82_exact [DecidableEq L] {order : ℕ → SumTree} (ho : SumsAll order) :
    (∀ (c : UniCat L α K) data, c.learnR id data = c.learn data) ∧
    (∀ (c : UniCat L α K) size ω, c.sampleR id size ω = c.sample size ω) ∧
    (∀ cfg : CatCfg α K, UMDAcatR id order cfg = UMDAcat id cfg) := by
  refine ⟨UniCat.learnR_id, UniCat.sampleR_id, ?_⟩
  intro cfg
  unfold UMDAcatR UMDAcat catEda
  simp only [CatSpace.sampleR_id, CatSpace.checkR_id ho, UniCat.learnR_id, UniCat.sampleR_id]
  cases mkEdaG id { cfg.base with wNoise := some (-1) } (fun _ => .ok addEmptyStr)
      (fun ω => cfg.space.sample cfg.base.nVars cfg.base.sizeGen ω)
      (fun (c : UniCat ℕ α K) g _ (_ : Draws K) => c.learn g)
      (fun c ω => UniCat.sample c cfg.base.sizeGen ω) with
  | error err => rfl
  | ok e =>
    simp only
    cases cfg.space.check cfg.base.nVars <;> rfl

end

/-! ### Whole runs -/

section run
variable {α K C : Type} [LinearOrder α] [Field K] [LinearOrder K] [IsStrictOrderedRing K] [FloorRing K] [PyCost C]
  {cfg : CatCfg α K} {env : Env C} {f : ℕ → List (Cat α) → C} {ftol : C} {ρ : Rand (Draws K)}

/-- Arguments for which a categorical run in double precision cannot fail: `cats j` are the categories of variable
`j`, at most `2^21`; the frequencies are doubles that sum to 1 up to `2^-27`. -/
structure CatValid64 (cpu : ℕ) (cfg : CatCfg α K) (cats : ℕ → List (Cat α)) (m : ℕ) : Prop where
  pos : 1 ≤ m
  dead : cfg.base.deadIter ≤ cfg.base.maxIter
  vars : cfg.base.nVars ≠ 0
  size : (m : ℤ) ≤ cfg.base.sizeGen
  cpu : cfg.base.parallel = true → cpu ≤ m
  trunc : 1 ≤ selLen fl64 cfg.base.sizeGen cfg.base.alpha
  strings : ∀ j, (cats j).length ≤ 2 ^ 21 ∧ ∀ w ∈ cats j, w.isStr = true
  space : ∀ j < cfg.base.nVars, ∃ v p, cfg.space.vals[j]? = some v ∧ cfg.space.freq[j]? = some p ∧
    v.length = p.length ∧ p.length ≤ 2 ^ 21 ∧ (∀ x ∈ p, 0 ≤ x ∧ IsDouble x) ∧ |p.sum - 1| ≤ 1 / 2 ^ 27 ∧
    ∀ w ∈ v, w ∈ cats j
  data : ∀ d, cfg.base.initData = some d → d.cols = cfg.base.nVars ∧ d.dt = .object ∧
    Rect d.cols d.rows ∧ m ≤ d.rows.length ∧ ∀ r ∈ d.rows, ∀ (j : ℕ) w, r[j]? = some w → w ∈ cats j

/-- A generation of declared categories with the right number of columns. -/
structure CatGen64 (n : ℕ) (cats : ℕ → List (Cat α)) (g : Gen (List (Cat α))) : Prop where
  cols : g.cols = n
  dt : g.dt = .object
  rect : Rect n g.rows
  mem : ∀ r ∈ g.rows, ∀ (j : ℕ) w, r[j]? = some w → w ∈ cats j

theorem CatGen64.str {n : ℕ} {cats : ℕ → List (Cat α)} {g : Gen (List (Cat α))} (h : CatGen64 n cats g)
    (hc : ∀ j, ∀ w ∈ cats j, w.isStr = true) : ∀ r ∈ g.rows, ∀ v ∈ r, v.isStr = true := by
  intro r hr v hv
  obtain ⟨j, hj⟩ := List.mem_iff_getElem?.1 hv
  exact hc j v (h.mem r hr j v hj)

theorem UMDAcatR_ok {order : ℕ → SumTree} {fl : K → K} {e : Eda (List (Cat α)) (UniCat ℕ α K) (Draws K)}
    {b : UniCat ℕ α K} (h : UMDAcatR fl order cfg = .ok (e, b)) :
    MkOkG fl { cfg.base with wNoise := some (-1) } (fun _ => .ok addEmptyStr)
      (fun ω => cfg.space.sampleR fl cfg.base.nVars cfg.base.sizeGen ω)
      (fun c g _ _ => UniCat.learnR fl c g) (fun c ω => UniCat.sampleR fl c cfg.base.sizeGen ω) e ∧
    b = UniCat.new (List.range cfg.base.nVars) := by
  unfold UMDAcatR at h
  split at h
  · cases h
  rename_i e' he
  split at h
  · cases h
  have := Except.ok.inj h
  simp only [Prod.mk.injEq] at this
  obtain ⟨rfl, rfl⟩ := this
  exact ⟨mkEdaG_ok he, rfl⟩

theorem cat64_noRaise {cpu : ℕ} {m : ℕ} {cats : ℕ → List (Cat α)} (hval : CatValid64 cpu cfg cats m)
    {order : ℕ → SumTree} {e : Eda (List (Cat α)) (UniCat ℕ α K) (Draws K)} {b : UniCat ℕ α K}
    (h : UMDAcatR fl64 order cfg = .ok (e, b)) (hi : Unit01 ρ.init) (hω : ∀ t, Unit01 (ρ.sample t)) :
    NoRaise cpu e ρ m (CatGen64 cfg.base.nVars cats)
      (fun g => CatGen64 cfg.base.nVars cats g ∧ g.rows ≠ [])
      (fun c => c.vars = List.range cfg.base.nVars) := by
  obtain ⟨hm, hb⟩ := UMDAcatR_ok h
  have hpos := hval.pos
  have hsize := hval.size
  have hstr := fun j => (hval.strings j).2
  constructor
  · exact hval.pos
  · rw [hm.truncLen]; exact hval.trunc
  · rw [hm.parallel]; exact hval.cpu
  · cases hd : cfg.base.initData with
    | none =>
      rw [hm.initNone hd]
      obtain ⟨g, hg⟩ := CatSpace.sampleR_isOk (s := cfg.space) (size := cfg.base.sizeGen) hval.vars
        (by omega) hi (fun j hj => by
          obtain ⟨v, p, k1, k2, k3, k4, k5, k6, k7⟩ := hval.space j hj
          exact ⟨v, p, k1, k2, k3, k5, kahan_accepts k5 k4 k6, fun _ => .inl fun w hw => hstr j w (k7 w hw)⟩)
      obtain ⟨_, g1, g2, g3, _, g4⟩ := CatSpace.sampleR_ok hg
      refine ⟨g, hg, ⟨g1, ?_, g3, ?_⟩, by omega⟩
      · have h0 := Nat.pos_of_ne_zero hval.vars
        obtain ⟨v, p, k1, _, _, _, k6, _⟩ := g4 0 h0
        obtain ⟨v', p', k1', _, _, _, _, _, hc⟩ := hval.space 0 h0
        rw [k1] at k1'
        obtain rfl := Option.some.inj k1'
        exact k6 (fun w hw => hstr 0 w (hc w hw))
      · intro r hr j w hj
        have hjn : j < cfg.base.nVars := by
          rw [← g3 r hr]; exact (List.getElem?_eq_some_iff.1 hj).1
        obtain ⟨v, p, k1, k2, _, _, _, k7⟩ := g4 j hjn
        obtain ⟨v', p', k1', k2', _, _, hd', _, hc⟩ := hval.space j hjn
        rw [k1] at k1'
        obtain rfl := Option.some.inj k1'
        rw [k2] at k2'
        obtain rfl := Option.some.inj k2'
        obtain ⟨i, q, e1, _⟩ := k7 hi (fun x hx => (hd' x hx).2) r hr w hj
        exact hc w (List.mem_of_getElem? e1)
    | some d =>
      rw [(hm.initSome d hd).2]
      obtain ⟨d1, d2, d3, d4, d5⟩ := hval.data d hd
      exact ⟨d, rfl, ⟨d1, d2, by rw [← d1]; exact d3, d5⟩, d4⟩
  · intro g rows hG hsub
    exact ⟨hG.cols, hG.dt, fun r hr => hG.rect r (hsub r hr), fun r hr => hG.mem r (hsub r hr)⟩
  · intro a c ha hc
    refine ⟨by rw [ha.cols, hc.cols], ha.cols, ?_, ?_, ?_⟩
    · simp only [ha.dt, DType.promote]
    · intro r hr
      rcases List.mem_append.1 hr with h | h
      · exact ha.rect r h
      · exact hc.rect r h
    · intro r hr
      rcases List.mem_append.1 hr with h | h
      · exact ha.mem r h
      · exact hc.mem r h
  · refine ⟨addEmptyStr, by rw [hm.mkNoise], ?_⟩
    intro g hG hne _
    exact ⟨g, addEmptyStr_isOk hG.dt (hG.str hstr), hG, hne⟩
  · rintro pm g el t hP ⟨hN, _⟩ _ _
    rw [hm.updatePm]
    obtain ⟨c', hc'⟩ := UniCat.learnR_isOk (fl := fl64) (c := pm) (data := g)
      (by rw [hP, List.length_range, hN.cols]) (by
        intro k _
        left
        intro v hv
        obtain ⟨r, hr, hk⟩ := List.mem_filterMap.1 hv
        exact hN.str hstr r hr v (List.mem_of_getElem? hk))
    refine ⟨c', hc', ?_⟩
    rw [(UniCat.learnR_ok (by rw [hP]; exact List.nodup_range) hc').1, hP]
  · rintro pm t hP ⟨pm0, g, el, t', hP0, ⟨hN, hne⟩, _, hu⟩
    rw [hm.updatePm] at hu
    rw [hm.sample]
    simp only at hu
    have hnd : pm0.vars.Nodup := by rw [hP0]; exact List.nodup_range
    obtain ⟨g', h1, h2, h3, h4⟩ := C82_sample_after_learn hnd
      (by
        rw [hP0]
        intro h0
        have := congrArg List.length h0
        rw [List.length_range, List.length_nil] at this
        exact hval.vars this)
      (by rw [hN.cols]; exact hN.rect) hne (by
        intro k _
        refine le_trans ?_ (hval.strings k).1
        refine (List.subperm_of_subset (List.nodup_dedup _) ?_).length_le
        intro x hx
        obtain ⟨r, hr, hk⟩ := List.mem_filterMap.1 (List.mem_dedup.1 hx)
        exact hN.mem r hr k x hk) hu (by omega : 0 ≤ cfg.base.sizeGen) (hω t)
    rw [hP0, List.length_range] at h3
    obtain ⟨_, _, g1, _, _, _, g4⟩ := UniCat.sampleR_ok h1
    have hmem : ∀ r ∈ g'.rows, ∀ (j : ℕ) w, r[j]? = some w → w ∈ cats j := by
      intro r hr j w hj
      obtain ⟨r0, hr0, hk⟩ := List.mem_filterMap.1 (h4 r hr j w hj)
      exact hN.mem r0 hr0 j w hk
    refine ⟨g', h1, ⟨by rw [g1, hP, List.length_range], ?_, h3, hmem⟩, by omega⟩
    have h0 : (List.range cfg.base.nVars)[0]? = some 0 := by
      rw [List.getElem?_range (Nat.pos_of_ne_zero hval.vars)]
    obtain ⟨tb, ht, hobj, _⟩ := g4 0 0 (by rw [hP]; exact h0)
    refine hobj ?_
    obtain ⟨_, l3⟩ := C82_learn hnd hu
    obtain ⟨tb', ht', ho⟩ := l3 0 0 (by rw [hP0]; exact h0)
    rw [ht] at ht'
    obtain rfl := Option.some.inj ht'
    intro v hv
    obtain ⟨r0, hr0, hk⟩ := List.mem_filterMap.1 ((ho.observed v).1 hv)
    exact hstr 0 v (hN.mem r0 hr0 0 v hk)

/-- The check of the frequencies in `CategoricalSampling.__init__`. -/
theorem checkR_close {p : List K} (hp : ProbList p) (hl : p.length ≤ 2 ^ 21) (hs : |p.sum - 1| ≤ 1 / 2 ^ 27) :
    |fl64 ((npOrder p.length).eval fl64 (fun k => p.getD k 0) - 1)| ≤ fl64 (1 / 10) := by
  have hleaf : ∀ i ∈ (npOrder p.length).leaves, i < p.length := by
    intro i hi
    exact List.mem_range.1 ((npOrder_sumsAll p.length).mem_iff.1 hi)
  have hget : ∀ i ∈ (npOrder p.length).leaves, 0 ≤ p.getD i 0 ∧ IsDouble (p.getD i 0) := by
    intro i hi
    rw [List.getD_eq_getElem?_getD, List.getElem?_eq_getElem (hleaf i hi), Option.getD_some]
    exact hp _ (List.getElem_mem _)
  have hsum : ((npOrder p.length).leaves.map (fun k => p.getD k 0)).sum = p.sum := by
    rw [((npOrder_sumsAll p.length).map _).sum_eq]
    congr 1
    apply List.ext_getElem
    · simp
    · intro j h1 h2
      simp [h2]
  have hdep : (npOrder p.length).depth ≤ 40 := npPairwise_depth 15 _ _ _ (hl.trans (by norm_num))
  have herr := (npOrder p.length).eval_error (x := fun k => p.getD k 0) (fun i hi => (hget i hi).2)
  have habs : ((npOrder p.length).leaves.map (fun i => |p.getD i 0|)) =
      (npOrder p.length).leaves.map (fun i => p.getD i 0) :=
    List.map_congr_left (fun i hi => abs_of_nonneg (hget i hi).1)
  rw [habs, hsum] at herr
  have hpow : (1 + (2 : K) ^ (-53 : ℤ)) ^ (npOrder p.length).depth - 1 ≤ 1 / 1000 := by
    have h1 : (1 + (2 : K) ^ (-53 : ℤ)) ^ (npOrder p.length).depth ≤ (1 + (2 : K) ^ (-53 : ℤ)) ^ 40 :=
      pow_le_pow_right₀ (by have := u_pos (K := K); linarith) hdep
    have h2 := pow_ratio (K := K) 40 (by norm_num)
    have h3 := (one_sub_pow_le (K := K) 40).1
    have h4 : (1 + 4 * (40 : ℕ) * (2 : K) ^ (-53 : ℤ)) * (1 - (2 : K) ^ (-53 : ℤ)) ^ 40 ≤
        (1 + 4 * (40 : ℕ) * (2 : K) ^ (-53 : ℤ)) * 1 :=
      mul_le_mul_of_nonneg_left h3 (by have := u_pos (K := K); positivity)
    have h5 : (1 + 4 * (40 : ℕ) * (2 : K) ^ (-53 : ℤ)) * 1 ≤ 1 + 1 / 1000 := by
      rw [u_val]; norm_num
    exact sub_le_iff_le_add'.2 (h1.trans (h2.trans (h4.trans h5)))
  have hs' := abs_le.1 hs
  have h27 : (1 : K) / 2 ^ 27 ≤ 1 / 1000 := by norm_num
  have hsn := hp.sum_nonneg
  have hfin : |(npOrder p.length).eval fl64 (fun k => p.getD k 0) - 1| ≤ 1 / 16 := by
    have h6 : |(npOrder p.length).eval fl64 (fun k => p.getD k 0) - p.sum| ≤ 1 / 1000 * 2 := by
      refine herr.trans (mul_le_mul hpow (by linarith) hsn (by norm_num))
    have h7 := abs_sub_le ((npOrder p.length).eval fl64 (fun k => p.getD k 0)) p.sum 1
    have h8 : (1 : K) / 1000 * 2 + 1 / 1000 ≤ 1 / 16 := by norm_num
    linarith
  have hd16 : IsDouble ((1 : K) / 16) := ⟨1, -4, by norm_num, by norm_num, by norm_num⟩
  refine (fl64_abs_le hd16 hfin).trans ?_
  have h9 := fl64_mono (show (1 : K) / 16 ≤ 1 / 10 by norm_num)
  rwa [fl64_fix hd16] at h9

/-- **C82** `UMDAcat` in double precision: construction and every run succeed, for up to `2^21` categories per
variable. -/
theorem C82_UMDAcat_never_raises [LawfulCost C] [UniformCost C] (hv : env.Valid) {m : ℕ} {cats : ℕ → List (Cat α)}
    (hval : CatValid64 env.cpu cfg cats m) (hi : Unit01 ρ.init) (hω : ∀ t, Unit01 (ρ.sample t))
    (hnum : ∀ k r, IsNum (f k r)) :
    ∃ e b, UMDAcatR fl64 npOrder cfg = .ok (e, b) ∧ ∃ res s, minimize env e f ftol b ρ = .ok (res, s) := by
  obtain ⟨e, he⟩ : ∃ e, mkEdaG fl64 { cfg.base with wNoise := some (-1) } (fun _ => .ok addEmptyStr)
      (fun ω => cfg.space.sampleR fl64 cfg.base.nVars cfg.base.sizeGen ω)
      (fun (c : UniCat ℕ α K) g _ (_ : Draws K) => c.learnR fl64 g)
      (fun c ω => UniCat.sampleR fl64 c cfg.base.sizeGen ω) = .ok e :=
    mkEdaG_isOk.2 ⟨hval.dead, fun d hd => (hval.data d hd).1⟩
  have hc : cfg.space.checkR fl64 npOrder cfg.base.nVars = .ok () := by
    refine CatSpace.checkR_isOk ?_
    intro j hj
    obtain ⟨v, p, k1, k2, k3, k4, k5, k6, _⟩ := hval.space j hj
    exact ⟨v, p, k1, k2, k3, checkR_close k5 k4 k6⟩
  have h : UMDAcatR fl64 npOrder cfg = .ok (e, UniCat.new (List.range cfg.base.nVars)) := by
    unfold UMDAcatR
    rw [he]
    simp only [hc]
  exact ⟨e, _, h, minimize_progress hv (cat64_noRaise hval h hi hω) hnum rfl⟩

end run

/-! ### Concrete cases -/

/-- Three categories, seven rows: the doubles nearest to 4/7, 2/7 and 1/7. -/
def Ex.catCol : List (Cat ℕ) := [.str 1, .str 2, .str 1, .str 3, .str 2, .str 1, .str 1]

example : obtainProbabilitiesR (K := ℚ) fl64 Ex.catCol =
    .ok [(.str 1, 2573485501354569 / 2 ^ 52), (.str 2, 2573485501354569 / 2 ^ 53), (.str 3, 2573485501354569 / 2 ^ 54)] := by
  decide +kernel

/-- Their sum is not 1, but within the tolerance. -/
example : ([2573485501354569 / 2 ^ 52, 2573485501354569 / 2 ^ 53, 2573485501354569 / 2 ^ 54] : List ℚ).sum ≠ 1 ∧
    |fl64 (kahanSum fl64 ([2573485501354569 / 2 ^ 52, 2573485501354569 / 2 ^ 53, 2573485501354569 / 2 ^ 54] :
      List ℚ) - 1)| ≤ 1 / 2 ^ 26 := by
  decide +kernel

/-- The hypotheses of `C82_no_value_lost` hold for it: some draw returns the rarest category. -/
example : ∃ n : ℕ, n < 2 ^ 53 ∧ pickValR (K := ℚ) fl64 [.str 1, .str 2, .str 3]
    [2573485501354569 / 2 ^ 52, 2573485501354569 / 2 ^ 53, 2573485501354569 / 2 ^ 54] ((n : ℚ) / 2 ^ 53) =
      .ok (Cat.str 3 : Cat ℕ) :=
  C82_no_value_lost (K := ℚ) (col := Ex.catCol) (t := [(.str 1, 2573485501354569 / 2 ^ 52),
    (.str 2, 2573485501354569 / 2 ^ 53), (.str 3, 2573485501354569 / 2 ^ 54)]) (by decide +kernel)
    (by decide) (by norm_num [Ex.catCol])

/-- **C82** The bound of `C82_no_value_lost` is needed: a category with the frequency `2^-60` beside one with
frequency 1 passes every check and is never drawn, because the cumulative sums are 1 and 1. -/
theorem C82_lost_category : (CatSpace.mk (α := ℕ) (K := ℚ) false [[.str 1, .str 2]] [[1, 1 / 2 ^ 60]]).checkR fl64
      npOrder 1 = .ok () ∧
    ∀ x : ℚ, 0 ≤ x → x < 1 → pickValR fl64 [Cat.str 1, Cat.str (2 : ℕ)] [1, 1 / 2 ^ 60] x = .ok (.str 1) := by
  refine ⟨by decide +kernel, ?_⟩
  intro x _ hx
  have h : cdfR fl64 ([1, 1 / 2 ^ 60] : List ℚ) = [1, 1] := by decide +kernel
  unfold pickValR
  rw [h]
  simp [List.findIdx_cons, hx]

/-- `catCfg` with the frequencies 0.1, 0.2 and 0.7, none of which is a double and whose rounded values do not sum
to 1 in the reals. -/
def Ex.catCfg64 : CatCfg ℕ ℚ :=
  { Ex.catCfg with space := { objArr := false, vals := [[.str 0, .str 1], [.str 3, .str 4, .str 5]],
                              freq := [[1 / 4, 3 / 4], [fl64 (1 / 10), fl64 (1 / 5), fl64 (7 / 10)]] } }

theorem Ex.catCfg64_valid : CatValid64 2 Ex.catCfg64
    (fun j => if j = 0 then [.str 0, .str 1] else [.str 3, .str 4, .str 5]) 4 := by
  refine ⟨by decide, by decide, by decide, by decide, fun _ => by decide, by decide +kernel, ?_, ?_, ?_⟩
  · intro j
    by_cases hj : j = 0
    · subst hj
      exact ⟨by norm_num, by decide⟩
    · simp only [hj, if_false]
      exact ⟨by norm_num, by decide⟩
  · intro j hj
    have : j = 0 ∨ j = 1 := by have : j < 2 := hj; omega
    rcases this with rfl | rfl
    · refine ⟨_, _, rfl, rfl, rfl, by norm_num, ?_, by decide +kernel, by decide⟩
      intro x hx
      simp only [List.mem_cons, List.not_mem_nil, or_false] at hx
      rcases hx with rfl | rfl
      · exact ⟨by norm_num, 1, -2, by norm_num, by norm_num, by norm_num⟩
      · exact ⟨by norm_num, 3, -2, by norm_num, by norm_num, by norm_num⟩
    · refine ⟨_, _, rfl, rfl, rfl, by norm_num, ?_, by decide +kernel, by decide⟩
      intro x hx
      simp only [List.mem_cons, List.not_mem_nil, or_false] at hx
      rcases hx with rfl | rfl | rfl
      · exact ⟨by decide +kernel, fl64_double _⟩
      · exact ⟨by decide +kernel, fl64_double _⟩
      · exact ⟨by decide +kernel, fl64_double _⟩
  · intro d hd; cases hd

example : ([fl64 (1 / 10), fl64 (1 / 5), fl64 (7 / 10)] : List ℚ).sum ≠ 1 := by decide +kernel

/-- A run in double precision. -/
example : ∃ e b, UMDAcatR fl64 npOrder Ex.catCfg64 = .ok (e, b) ∧
    ∃ res s, minimize Ex.env e Ex.catCost 0 b Ex.rand = .ok (res, s) :=
  C82_UMDAcat_never_raises Ex.env_valid Ex.catCfg64_valid Ex.rand_init_unit Ex.rand_unit
    (fun _ _ => field_isNum _)

end Verif
