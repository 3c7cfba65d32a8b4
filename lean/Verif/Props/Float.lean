/-
C49, C20, C22 for the double precision arithmetic that Python really uses.
-/
import Verif.Props.Setup
import Verif.Props.Binary
import Verif.Lemmas.Float64
import Mathlib.Algebra.Order.Group.MinMax

set_option linter.unusedSectionVars false

namespace Verif

variable {K : Type} [Field K] [LinearOrder K] [IsStrictOrderedRing K] [FloorRing K]

/-- **C49** with the product rounded to double precision: the selection size lies between `0` and
`size_gen`, and it is the integer part of the exact product or one more. -/
theorem C49_double {n : ℤ} (hn : 0 ≤ n) (hn' : n ≤ 2 ^ 53) {a : K} (ha0 : 0 ≤ a) (ha1 : a ≤ 1) :
    0 ≤ selLen fl64 n a ∧ selLen fl64 n a ≤ n ∧
    (selLen fl64 n a = ⌊(n : K) * a⌋ ∨ selLen fl64 n a = ⌊(n : K) * a⌋ + 1) := by
  have hfn : fl64 (n : K) = n := fl64_int (by rw [abs_of_nonneg hn]; exact hn')
  obtain ⟨heq, h0, h1⟩ := C49_selection_size_bounds fl64 fl64_mono fl64_zero n hn hfn a ha0 ha1
  refine ⟨h0, h1, ?_⟩
  have hnK : (0 : K) ≤ n := by exact_mod_cast hn
  have hp0 : (0 : K) ≤ n * a := mul_nonneg hnK ha0
  have hpn : (n : K) * a ≤ n := mul_le_of_le_one_right hnK ha1
  have hf0 : 0 ≤ ⌊(n : K) * a⌋ := Int.floor_nonneg.2 hp0
  have hfn' : ⌊(n : K) * a⌋ ≤ n := by
    have := (Int.floor_le ((n : K) * a)).trans hpn
    exact_mod_cast this
  have hlo : ⌊(n : K) * a⌋ ≤ selLen fl64 n a := by
    rw [heq, Int.le_floor]
    have := fl64_mono (Int.floor_le ((n : K) * a))
    rwa [fl64_int (by rw [abs_of_nonneg hf0]; omega)] at this
  rcases hfn'.eq_or_lt with he | hlt
  · left; omega
  · have hhi : fl64 ((n : K) * a) ≤ ((⌊(n : K) * a⌋ + 1 : ℤ) : K) := by
      have := fl64_mono (show (n : K) * a ≤ ((⌊(n : K) * a⌋ + 1 : ℤ) : K) by
        push_cast; exact (Int.lt_floor_add_one _).le)
      rwa [fl64_int (by rw [abs_of_nonneg (by omega)]; omega)] at this
    have : selLen fl64 n a ≤ ⌊(n : K) * a⌋ + 1 := by
      rw [heq]
      have := (Int.floor_le (fl64 ((n : K) * a))).trans hhi
      exact_mod_cast this
    omega

/-- **C49** with the product rounded to double precision the selection size is monotone in the
factor. -/
theorem C49_double_mono {n : ℤ} (hn : 0 ≤ n) {a b : K} (ha : 0 ≤ a) (hab : a ≤ b) :
    selLen fl64 n a ≤ selLen fl64 n b :=
  C49_selection_size_mono fl64 fl64_mono fl64_zero n hn a b ha hab

/-- **C49** the selection size need not be the integer part of the exact product: the double `1/3` is
less than a third, yet `int(3 * (1/3))` is `1`. -/
theorem C49_double_rounds_up :
    selLen fl64 3 (fl64 (1 / 3 : ℚ)) = 1 ∧ ⌊((3 : ℤ) : ℚ) * fl64 (1 / 3 : ℚ)⌋ = 0 := by
  decide +kernel

/-- **C49** the factor itself is rounded: `int(100 * 0.29)` is `28`. -/
theorem C49_double_decimal :
    selLen fl64 100 (fl64 (29 / 100 : ℚ)) = 28 ∧ selLen id 100 (29 / 100 : ℚ) = 29 := by
  decide +kernel

example : selLen fl64 10 (fl64 (1 / 2 : ℚ)) = 5 ∧ selLen fl64 7 (fl64 (2 / 5 : ℚ)) = 2 := by
  decide +kernel

open Spec

theorem clip_dist (lo hi x y : K) : |clip lo hi x - clip lo hi y| ≤ |x - y| := by
  unfold clip
  have h1 : |max lo (min hi x) - max lo (min hi y)| ≤ |min hi x - min hi y| := by
    rw [max_comm lo, max_comm lo]
    exact abs_max_sub_max_le_abs _ _ _
  have h2 : |min hi x - min hi y| ≤ |x - y| := by
    rw [min_comm hi, min_comm hi]
    have := abs_min_sub_min_le_max x hi y hi
    rwa [sub_self, abs_zero, max_eq_left (abs_nonneg _)] at this
  exact h1.trans h2

/-- **C20** in double arithmetic: for binary data every learned probability is within `2^-54` of the
clipped fraction of ones; it is exact if no individual or every individual has the bit. -/
theorem C20_double {b b' : UniBin K} {data : List (List K)} {n : ℕ} (hb : b.lb < b.ub)
    (hd : ∀ r ∈ data, BinaryRow n r) (h : b.learn fl64 data = .ok b') :
    b'.p.length = n ∧ ∀ j < n, ∃ p, b'.p[j]? = some p ∧
      |clip b.lb b.ub (mean (col data j)) - p| ≤ 2 ^ (-54 : ℤ) ∧
      (∀ v : K, v = 0 ∨ v = 1 → (∀ r ∈ data, r[j]? = some v) → p = clip b.lb b.ub v) := by
  have hr : Rect n data := fun r hr => (hd r hr).1
  obtain ⟨h1, _, _, _, h5⟩ := C20_learn_frequencies hb hr h
  refine ⟨h1, fun j hj => ⟨_, h5 j hj, ?_, ?_⟩⟩
  · refine (clip_dist _ _ _ _).trans ?_
    have hne := (UniBin.learn_ok h).1
    have hbin : ∀ r ∈ data, r.getD j 0 = 0 ∨ r.getD j 0 = 1 := by
      intro r hr'
      rw [List.getD_eq_getElem?_getD, List.getElem?_eq_getElem (by rw [(hd r hr').1]; exact hj)]
      exact (hd r hr').2 _ (List.getElem_mem _)
    have hm := C20_no_clipping (fl := id) monotone_id rfl rfl hne hbin
    have hm' : clip 0 1 (mean (col data j)) = mean (col data j) := hm
    apply fl64_unit
    · rw [← hm']; exact le_max_left _ _
    · rw [← hm']; exact max_le zero_le_one (min_le_left _ _)
  · intro v hv hall
    congr 1
    have hne := (UniBin.learn_ok h).1
    have hlen : (data.length : K) ≠ 0 := by
      have : 0 < data.length := List.length_pos_iff.2 hne
      exact_mod_cast this.ne'
    have hc : col data j = List.replicate data.length v := by
      unfold col
      rw [List.eq_replicate_iff]
      refine ⟨by simp, ?_⟩
      intro x hx
      obtain ⟨r, hr', rfl⟩ := List.mem_map.1 hx
      rw [List.getD_eq_getElem?_getD, hall r hr']; rfl
    have hmv : mean (col data j) = v := by
      rw [hc]; unfold mean
      rw [List.sum_replicate, List.length_replicate, nsmul_eq_mul, mul_comm, mul_div_assoc,
        div_self hlen, mul_one]
    rw [hmv]
    rcases hv with rfl | rfl
    · exact fl64_zero
    · have := fl64_int (K := K) (n := 1) (by norm_num)
      simpa using this

/-- Three individuals: the learned probability of the first variable is the double nearest to 2/3. -/
example : ∃ b' : UniBin ℚ, UniBin.learn fl64 ({ n := 2, lb := 0, ub := 1, p := [0, 0] } : UniBin ℚ)
    [[1, 1], [0, 1], [1, 1]] = .ok b' ∧ b'.p = [6004799503160661 / 2 ^ 53, 1] :=
  ⟨_, rfl, by decide +kernel⟩

/-- **C22** in double arithmetic: agreed bits stay fixed. -/
theorem C22_double {cfg : UMDAdCfg K} {e : Eda (List K) (UniBin K) (Draws K)} {b : UniBin K} {C : Type}
    [PyCost C] {env : Env C} {f : ℕ → List K → C} {ftol : C} {ρ : Rand (Draws K)} (hv : env.Valid)
    (h : UMDAd fl64 cfg = .ok (e, b)) (hlo : cfg.lower = 0) (hup : cfg.upper = 1)
    (he : 0 ≤ e.eliteLen) (het : e.eliteLen ≤ e.truncLen) (hω : ∀ t, Unit01 (ρ.sample t))
    {j : ℕ} (hj : j < cfg.base.nVars) {v : K} (hv01 : v = 0 ∨ v = 1)
    {t : ℕ} {s s1 : St (List K) C (UniBin K)} (hvis : Visited env e f ftol b ρ t s)
    (htr : truncation env e s = .ok s1) (hag : ∀ r ∈ s1.gen.rows, r[j]? = some v)
    {t' : ℕ} {s' s'' : St (List K) C (UniBin K)} {brk : Bool}
    {nz : Gen (List K) → Except PyErr (Gen (List K))} (ht : t ≤ t')
    (hvis' : Visited env e f ftol b ρ t' s') (hnz : e.mkNoise ρ.noise = .ok nz)
    (hst : step env e f ftol ρ nz t' s' = .ok (s'', brk)) :
    ∀ r ∈ s''.gen.rows, r[j]? = some v :=
  C22_fixed_bits_stay_fixed hv fl64_zero (by have := fl64_int (K := K) (n := 1) (by norm_num); simpa using this)
    h hlo hup he het hω hj hv01 hvis htr hag ht hvis' hnz hst

end Verif
