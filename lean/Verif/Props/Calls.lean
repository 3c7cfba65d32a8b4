/-
C94: calls of the constructors.
-/
import Verif.Props.Settings
import Verif.Props.Bounds

set_option linter.unusedSectionVars false

namespace Verif

open Spec

section calls
variable {K : Type} [Field K] [LinearOrder K] [IsStrictOrderedRing K]
variable {other : Algo → (String → Option (Arg K)) → Except PyErr Unit} {c : Algo} {kw : Kwargs K}
variable {o : AlgoObj K}

/-- Binding succeeds exactly if every keyword is a parameter and every required parameter is given. -/
theorem bindArgs_iff : (∃ b, bindArgs (K := K) c.sig kw = .ok b) ↔
    (∀ kv ∈ kw, kv.1 ∈ required c ∨ (Spec.defaultArg (K := K) c kv.1).isSome) ∧
      ∀ key ∈ required c, (kw.lookup key).isSome := by
  have hp : ∀ key, ((c.sig (K := K)).lookup key).isNone = true ↔
      ¬ (key ∈ required c ∨ (Spec.defaultArg (K := K) c key).isSome) := by
    intro key
    rw [sig_lookup]
    by_cases hr : key ∈ required c
    · simp [hr]
    · rw [if_neg hr]
      cases Spec.defaultArg (K := K) c key <;> simp [hr]
  have hm : ∀ key, (key, none) ∈ c.sig (K := K) ↔ key ∈ required c := by
    intro key
    cases c <;> simp [Algo.sig, sigHead, required]
  have h1 : kw.any (fun kv => ((c.sig (K := K)).lookup kv.1).isNone) = true ↔
      ¬ ∀ kv ∈ kw, kv.1 ∈ required c ∨ (Spec.defaultArg (K := K) c kv.1).isSome := by
    rw [List.any_eq_true]
    push Not
    refine exists_congr fun kv => and_congr_right fun _ => ?_
    rw [hp]
    push Not
    rfl
  have h2 : (c.sig (K := K)).any (fun p => p.2.isNone && (kw.lookup p.1).isNone) = true ↔
      ¬ ∀ key ∈ required c, (kw.lookup key).isSome := by
    rw [List.any_eq_true]
    push Not
    constructor
    · rintro ⟨⟨key, d⟩, hd, he⟩
      rw [Bool.and_eq_true, Option.isNone_iff_eq_none, Option.isNone_iff_eq_none] at he
      obtain ⟨rfl, he⟩ := he
      refine ⟨key, (hm key).1 hd, ?_⟩
      dsimp only at he
      rw [he]
      simp
    · rintro ⟨key, hr, he⟩
      refine ⟨(key, none), (hm key).2 hr, ?_⟩
      rw [Bool.and_eq_true]
      refine ⟨rfl, ?_⟩
      cases hl : kw.lookup key with
      | none => rfl
      | some v => rw [hl] at he; simp at he
  unfold bindArgs
  by_cases ha : ∀ kv ∈ kw, kv.1 ∈ required c ∨ (Spec.defaultArg (K := K) c kv.1).isSome
  · rw [if_neg (fun h => h1.1 h ha)]
    by_cases hb : ∀ key ∈ required c, (kw.lookup key).isSome
    · rw [if_neg (fun h => h2.1 h hb)]
      exact ⟨fun _ => ⟨ha, hb⟩, fun _ => ⟨_, rfl⟩⟩
    · rw [if_pos (h2.2 hb)]
      exact ⟨fun ⟨_, h⟩ => (by cases h), fun h => absurd h.2 hb⟩
  · rw [if_pos (h1.2 ha)]
    exact ⟨fun ⟨_, h⟩ => (by cases h), fun h => absurd h.1 ha⟩

theorem bindArgs_typeError (h : ¬ ∃ b, bindArgs (K := K) c.sig kw = .ok b) :
    construct other c kw = .error .typeError := by
  have : bindArgs c.sig kw = .error .typeError := by
    unfold bindArgs at h ⊢
    split_ifs at h ⊢
    · rfl
    · rfl
    · exact absurd ⟨_, rfl⟩ h
  unfold construct
  rw [this]

/-- **C94** a call without a required argument, or with a keyword that is not a parameter, raises `TypeError`. -/
theorem C94_type_error
    (h : (∃ key ∈ required c, kw.lookup key = none) ∨
      ∃ kv ∈ kw, kv.1 ∉ required c ∧ Spec.defaultArg (K := K) c kv.1 = none) :
    construct other c kw = .error .typeError := by
  apply bindArgs_typeError
  rw [bindArgs_iff]
  rintro ⟨h1, h2⟩
  rcases h with ⟨key, hk, hn⟩ | ⟨kv, hk, hr, hn⟩
  · have := h2 key hk
    rw [hn] at this
    cases this
  · rcases h1 kv hk with h1 | h1
    · exact hr h1
    · rw [hn] at h1; cases h1

/-- **C94** in a call that succeeds every parameter has the value the caller gave, or its default. -/
theorem C94_values (h : construct other c kw = .ok o) {key : String}
    (hk : key ∈ required c ∨ (Spec.defaultArg (K := K) c key).isSome) : o.args key = given c kw key := by
  obtain ⟨b, hb, _, _, _, hargs⟩ := construct_ok h
  rw [hargs]
  refine bound_given hb ?_
  rw [sig_lookup]
  split_ifs with hr
  · simp
  · rcases hk with hk | hk
    · exact absurd hk hr
    · obtain ⟨v, hv⟩ := Option.isSome_iff_exists.1 hk
      rw [hv]; simp

/-- What a correct call passes on to `EDA.__init__`. -/
theorem call_bound (h1 : ∀ kv ∈ kw, kv.1 ∈ required c ∨ (Spec.defaultArg (K := K) c kv.1).isSome)
    (h2 : ∀ key ∈ required c, (kw.lookup key).isSome) {mx dead : ℤ} (hm : kw.lookup "max_iter" = some (.int mx))
    (hd : kw.lookup "dead_iter" = some (.int dead)) :
    ∃ b a, bindArgs c.sig kw = .ok b ∧
      edaInit (c.superArg b) = if dead ≤ mx then .ok a else .error .assertion := by
  obtain ⟨b, hb⟩ := bindArgs_iff.2 ⟨h1, h2⟩
  have hg : ∀ key, key ∈ required c ∨ (Spec.defaultArg (K := K) c key).isSome → ∃ v, b key = some v := by
    intro key hk
    rw [bound_given hb]
    · unfold given
      cases hl : kw.lookup key with
      | some v => exact ⟨v, rfl⟩
      | none =>
        rcases hk with hk | hk
        · have := h2 key hk
          rw [hl] at this; cases this
        · exact Option.isSome_iff_exists.1 hk
    · rw [sig_lookup]
      split_ifs with hr
      · simp
      · rcases hk with hk | hk
        · exact absurd hk hr
        · obtain ⟨v, hv⟩ := Option.isSome_iff_exists.1 hk
          rw [hv]; simp
  have hreq : ∀ key ∈ ["size_gen", "max_iter", "dead_iter", "n_variables"], key ∈ required c := by
    intro key hk
    simp only [List.mem_cons, List.not_mem_nil, or_false] at hk
    rcases hk with rfl | rfl | rfl | rfl <;> cases c <;> simp [required]
  have hbm : b "max_iter" = some (.int mx) := by
    rw [bound_given hb (by rw [sig_lookup, if_pos (hreq _ (by simp))]; simp), given, hm]
  have hbd : b "dead_iter" = some (.int dead) := by
    rw [bound_given hb (by rw [sig_lookup, if_pos (hreq _ (by simp))]; simp), given, hd]
  obtain ⟨v1, e1⟩ := hg "size_gen" (.inl (hreq _ (by simp)))
  obtain ⟨v4, e4⟩ := hg "n_variables" (.inl (hreq _ (by simp)))
  obtain ⟨v5, e5⟩ := hg "alpha" (.inr rfl)
  obtain ⟨v7, e7⟩ := hg "disp" (.inr rfl)
  obtain ⟨v8, e8⟩ := hg "parallelize" (.inr rfl)
  have s1 : c.superArg b "size_gen" = some v1 := by rw [← e1]; cases c <;> rfl
  have s2 : c.superArg b "max_iter" = some (.int mx) := by rw [← hbm]; cases c <;> rfl
  have s3 : c.superArg b "dead_iter" = some (.int dead) := by rw [← hbd]; cases c <;> rfl
  have s4 : c.superArg b "n_variables" = some v4 := by rw [← e4]; cases c <;> rfl
  have s5 : ∃ v, c.superArg b "alpha" = some v := by
    by_cases hc : c = .pbil
    · subst hc; exact ⟨_, rfl⟩
    · exact ⟨v5, by rw [← e5]; cases c <;> first | rfl | exact absurd rfl hc⟩
  have s6 : ∃ v, c.superArg b "elite_factor" = some v := by
    by_cases hc : c = .speda ∨ c = .mkeda
    · exact ⟨v5, by rw [← e5]; rcases hc with rfl | rfl <;> rfl⟩
    · obtain ⟨v6, e6⟩ := hg "elite_factor" (.inr (by simp [Spec.defaultArg, hc]))
      exact ⟨v6, by rw [← e6]; cases c <;> first | rfl | exact absurd (by simp) hc⟩
  have s7 : c.superArg b "disp" = some v7 := by rw [← e7]; cases c <;> rfl
  have s8 : c.superArg b "parallelize" = some v8 := by rw [← e8]; cases c <;> rfl
  have s9 : ∃ v, c.superArg b "w_noise" = some v := by
    by_cases hc : continuousAlgo c = true
    · obtain ⟨v9, e9⟩ := hg "w_noise" (.inr (by simp [Spec.defaultArg, hc]))
      exact ⟨v9, by rw [← e9]; cases c <;> first | rfl | exact absurd hc (by decide)⟩
    · cases c <;> first | exact ⟨_, rfl⟩ | exact absurd rfl hc
  obtain ⟨w5, s5⟩ := s5
  obtain ⟨w6, s6⟩ := s6
  obtain ⟨w9, s9⟩ := s9
  refine ⟨b, { sizeGen := v1, maxIter := .int mx, deadIter := .int dead, nVars := v4, alpha := w5, eliteFactor := w6
               disp := v7, parallelize := v8, wNoise := w9 }, hb, ?_⟩
  unfold edaInit
  rw [s1, s2, s3, s4, s5, s6, s7, s8, s9]
  dsimp only
  by_cases hle : dead ≤ mx
  · rw [if_pos hle, if_neg (not_not.2 hle)]
  · rw [if_neg hle, if_pos hle]

/-- **C94** `dead_iter > max_iter` raises `AssertionError`, in every otherwise correct call. -/
theorem C94_dead_iter (h1 : ∀ kv ∈ kw, kv.1 ∈ required c ∨ (Spec.defaultArg (K := K) c kv.1).isSome)
    (h2 : ∀ key ∈ required c, (kw.lookup key).isSome) {mx dead : ℤ} (hm : kw.lookup "max_iter" = some (.int mx))
    (hd : kw.lookup "dead_iter" = some (.int dead)) (hlt : mx < dead) :
    construct other c kw = .error .assertion := by
  obtain ⟨b, a, hb, ha⟩ := call_bound h1 h2 hm hd
  unfold construct
  rw [hb]
  dsimp only
  rw [ha, if_neg (not_le.2 hlt)]

/-- `None`, a number, a list or an array of numbers. -/
def IsBoundArg : Arg K → Prop
  | .bool _ => False
  | .other _ => False
  | _ => True

/-- **C94** (partial: Python lists only) `UMDAc`, `PBIL`, `EGNA` and `EMNA`, in an otherwise correct call (without
`vector`): the call succeeds exactly if no bound is a list whose length is not `n_variables`, and raises
`AssertionError` otherwise.  Numpy arrays are not checked. -/
theorem C94_list_bounds_partial (hc : c = .umdac ∨ c = .pbil ∨ c = .egna ∨ c = .emna)
    (h1 : ∀ kv ∈ kw, kv.1 ∈ required c ∨ (Spec.defaultArg (K := K) c kv.1).isSome)
    (h2 : ∀ key ∈ required c, (kw.lookup key).isSome) {mx dead : ℤ} (hm : kw.lookup "max_iter" = some (.int mx))
    (hd : kw.lookup "dead_iter" = some (.int dead)) (hle : dead ≤ mx) {n : ℕ}
    (hn : kw.lookup "n_variables" = some (.int n)) (hv : kw.lookup "vector" = none) {lo up : Arg K}
    (hlo : given c kw "lower_bound" = some lo) (hup : given c kw "upper_bound" = some up)
    (hblo : IsBoundArg lo) (hbup : IsBoundArg up) :
    ((∃ o, construct other c kw = .ok o) ↔ ∀ l, lo = .list l ∨ up = .list l → l.length = n) ∧
    ((¬ ∃ o, construct other c kw = .ok o) → construct other c kw = .error .assertion) := by
  obtain ⟨b, a, hb, ha⟩ := call_bound h1 h2 hm hd
  rw [if_pos hle] at ha
  have hval : ∀ key, key ∈ required c ∨ (Spec.defaultArg (K := K) c key).isSome → b key = given c kw key := by
    intro key hk
    refine bound_given hb ?_
    rw [sig_lookup]
    split_ifs with hr
    · simp
    · rcases hk with hk | hk
      · exact absurd hk hr
      · obtain ⟨v, hv⟩ := Option.isSome_iff_exists.1 hk
        rw [hv]; simp
  have bn : b "n_variables" = some (.int (.ofNat n)) := by
    rw [hval _ (.inl (by rcases hc with rfl | rfl | rfl | rfl <;> simp [required])), given, hn]; rfl
  have blo : b "lower_bound" = some lo := by
    rw [hval _ (.inr (by rcases hc with rfl | rfl | rfl | rfl <;> rfl)), hlo]
  have bup : b "upper_bound" = some up := by
    rw [hval _ (.inr (by rcases hc with rfl | rfl | rfl | rfl <;> rfl)), hup]
  have bvec : c = .umdac ∨ c = .pbil → b "vector" = some .none := by
    rintro (rfl | rfl)
    · rw [hval _ (.inr rfl), given, hv]; rfl
    · rw [hval _ (.inr rfl), given, hv]; rfl
  have bvec' : c = .egna ∨ c = .emna → b "vector" = none := by
    rintro (rfl | rfl) <;> rw [bindArgs_ok hb] <;> rfl
  obtain ⟨lo', hlo'⟩ : ∃ x, lo.toBound = some x := by
    cases lo <;> first | exact ⟨_, rfl⟩ | exact hblo.elim
  obtain ⟨up', hup'⟩ : ∃ x, up.toBound = some x := by
    cases up <;> first | exact ⟨_, rfl⟩ | exact hbup.elim
  have hrest : restInit other c b = (UniformInit.new n lo' up').map (fun _ => ()) := by
    unfold restInit
    rcases hc with rfl | rfl | rfl | rfl
    · rw [bn, blo, bup, bvec (.inl rfl)]; dsimp only; rw [hlo', hup']
    · rw [bn, blo, bup, bvec (.inr rfl)]; dsimp only; rw [hlo', hup']
    · rw [bn, blo, bup, bvec' (.inl rfl)]; dsimp only; rw [hlo', hup']
    · rw [bn, blo, bup, bvec' (.inr rfl)]; dsimp only; rw [hlo', hup']
  have hcon : construct other c kw = match UniformInit.new n lo' up' with
      | .error err => .error err
      | .ok _ => .ok { cls := c, attrs := a, args := b } := by
    unfold construct
    rw [hb]
    dsimp only
    rw [ha]
    dsimp only
    rw [hrest]
    cases UniformInit.new n lo' up' <;> rfl
  have hchk : ∀ {x : Arg K} {x' : Bound K}, x.toBound = some x' →
      (x'.check n = true ↔ ∀ l, x = .list l → l.length = n) := by
    intro x x' hx
    cases x with
    | list l =>
      obtain rfl := Option.some.inj hx
      simp [Bound.check]
    | bool _ => cases hx
    | other _ => cases hx
    | none => obtain rfl := Option.some.inj hx; simp [Bound.check]
    | int _ => obtain rfl := Option.some.inj hx; simp [Bound.check]
    | num _ => obtain rfl := Option.some.inj hx; simp [Bound.check]
    | array _ => obtain rfl := Option.some.inj hx; simp [Bound.check]
  rw [hcon]
  unfold UniformInit.new
  by_cases c1 : lo'.check n = true
  · rw [if_neg (not_not.2 c1)]
    by_cases c2 : up'.check n = true
    · rw [if_neg (not_not.2 c2)]
      refine ⟨⟨fun _ l hl => ?_, fun _ => ⟨_, rfl⟩⟩, fun h => absurd ⟨_, rfl⟩ h⟩
      rcases hl with hl | hl
      · exact (hchk hlo').1 c1 l hl
      · exact (hchk hup').1 c2 l hl
    · rw [if_pos c2]
      refine ⟨⟨fun ⟨_, h⟩ => (by cases h), fun h => absurd ((hchk hup').2 fun l hl => h l (.inr hl)) c2⟩, fun _ => rfl⟩
  · rw [if_pos c1]
    refine ⟨⟨fun ⟨_, h⟩ => (by cases h), fun h => absurd ((hchk hlo').2 fun l hl => h l (.inl hl)) c1⟩, fun _ => rfl⟩

end calls

section arrays
variable {K : Type} [Field K] [LinearOrder K] [IsStrictOrderedRing K] [FloorRing K] {C : Type} [PyCost C]
variable {fl sq : K → K} {env : Env C} {f : ℕ → List K → C} {ftol : C} {ρ : Rand (Draws K)}

/-- The bounds cannot be used for `n` variables: neither is missing, and one is an array whose length is neither
`n` nor 1. -/
def ArrayMisfit (n : ℕ) (lower upper : Bound K) : Prop :=
  (∃ l : List K, (lower = .array l ∧ upper ≠ .none ∨ upper = .array l ∧ lower ≠ .none) ∧ l.length ≠ n ∧ l.length ≠ 1)

theorem uniform_misfit {n : ℕ} {lower upper : Bound K} {u : UniformInit K} (hu : UniformInit.new n lower upper = .ok u)
    (hb : ArrayMisfit n lower upper) (size : ℤ) (ω : Draws K) : u.sample fl size ω = .error .valueError := by
  have hu' : u = { n := n, lower := lower, upper := upper } := by
    unfold UniformInit.new at hu
    split at hu
    · cases hu
    split at hu
    · cases hu
    exact (Except.ok.inj hu).symm
  subst hu'
  obtain ⟨l, hl, hn, h1⟩ := hb
  have hnone : ∀ {x : Bound K}, x ≠ .none → ¬ x.isNone = true := by
    intro x hx h
    cases x with
    | none => exact hx rfl
    | scalar _ => cases h
    | list _ => cases h
    | array _ => cases h
  have hfit : ¬ (Bound.array l).fits n = true := by
    simp [Bound.fits, hn, h1]
  unfold UniformInit.sample
  dsimp only
  rcases hl with ⟨rfl, hup⟩ | ⟨rfl, hlo⟩
  · rw [if_neg (by rintro (h | h); · cases h
                   · exact hnone hup h)]
    split
    · rfl
    · rw [if_pos (fun h => hfit h.1)]
  · rw [if_neg (by rintro (h | h); · exact hnone hlo h
                   · cases h)]
    split
    · rfl
    · rw [if_pos (fun h => hfit h.2)]

/-- **C94** arrays of bounds of the wrong length, other than one number, pass the constructor; `minimize` raises
`ValueError` before the first evaluation, whatever the cost function is (without `init_data`, and without `vector` for
`UMDAc` and `PBIL`). -/
theorem C94_array_bounds :
    (∀ {fac : List (List K) → List (List K)} {cfg : EMNACfg K}
      {e : Eda (List K) (MultiGauss K) (Draws K)} {b pm : MultiGauss K},
      EMNA fl sq fac cfg = .ok (e, b) → cfg.base.initData = none → ArrayMisfit cfg.base.nVars cfg.lower cfg.upper →
      minimize env e f ftol pm ρ = .error .valueError) ∧
    (∀ {S L : Type} [DecidableEq L] {lib : NetLib S L K (Draws K)} {name : ℕ → L}
      {cfg : NetCfg K L} {e : Eda (List K) (BNet S L K) (Draws K)} {b pm : BNet S L K},
      EGNA fl lib name cfg = .ok (e, b) → cfg.base.initData = none → ArrayMisfit cfg.base.nVars cfg.lower cfg.upper →
      minimize env e f ftol pm ρ = .error .valueError) ∧
    (∀ {S L : Type} [DecidableEq L] {kind : BnType} {lib : NetLib S L K (Draws K)} {name : ℕ → L}
      {l : Num K} {cfg : NetCfg K L} {e : Eda (List K) (Arch S L K) (Draws K)} {b pm : Arch S L K},
      archEda kind fl lib name l cfg = .ok (e, b) → cfg.base.initData = none →
      ArrayMisfit cfg.base.nVars cfg.lower cfg.upper → minimize env e f ftol pm ρ = .error .valueError) ∧
    (∀ {isPD : List (List K) → Bool} {h2 : ℕ → ℕ → K} {fac : List (List K) → List (List K)}
      {cfg : KedaCfg K} {e : Eda (List K) (UniKDE K) (Draws K)} {b pm : UniKDE K},
      UnivariateKEDA fl isPD h2 fac cfg = .ok (e, b) → cfg.base.initData = none →
      ArrayMisfit cfg.base.nVars cfg.lower cfg.upper → minimize env e f ftol pm ρ = .error .valueError) ∧
    (∀ {cfg : UMDAcCfg K} {e : Eda (List K) (UniGauss K) (Draws K)} {b pm : UniGauss K},
      (UMDAc fl sq cfg = .ok (e, b) ∨ PBIL fl sq cfg = .ok (e, b)) → cfg.base.initData = none →
      cfg.vector = none → ArrayMisfit cfg.base.nVars cfg.lower cfg.upper →
      minimize env e f ftol pm ρ = .error .valueError) := by
  have gen : ∀ {n : ℕ} {lower upper : Bound K} {size : ℤ} {ω : Draws K}
      (_ : ∃ u, UniformInit.new n lower upper = .ok u) (_ : ArrayMisfit n lower upper),
      uniformInitSample fl n lower upper size ω = .error .valueError := by
    rintro n lower upper size ω ⟨u, hu⟩ hb
    unfold uniformInitSample
    rw [hu]
    exact uniform_misfit hu hb size ω
  refine ⟨?_, ?_, ?_, ?_, ?_⟩
  · intro fac cfg e b pm h hd hb
    obtain ⟨hm, hu, _⟩ := EMNA_ok h
    apply minimize_init_error
    rw [(mkEda_ok hm).initNone hd]
    exact gen hu hb
  · intro S L _ lib name cfg e b pm h hd hb
    obtain ⟨hm, hu, _⟩ := EGNA_ok h
    apply minimize_init_error
    rw [(mkEda_ok hm).initNone hd]
    exact gen hu hb
  · intro S L _ kind lib name l cfg e b pm h hd hb
    obtain ⟨hm, hu, _⟩ := archEda_ok h
    apply minimize_init_error
    rw [(mkEda_ok hm).initNone hd]
    exact gen hu hb
  · intro isPD h2 fac cfg e b pm h hd hb
    obtain ⟨hm, hu, _⟩ := UnivariateKEDA_ok h
    apply minimize_init_error
    rw [(mkEda_ok hm).initNone hd]
    exact gen hu hb
  · intro cfg e b pm h hd hvec hb
    have hi : e.initGen = contInitSample fl cfg ∧ ∃ c, contInit cfg = .ok c := by
      rcases h with h | h
      · obtain ⟨hm, hc, _⟩ := mkCont_ok h
        exact ⟨(mkEda_ok hm).initNone hd, hc⟩
      · obtain ⟨hm, hc, _⟩ := mkCont_ok h
        exact ⟨(mkEda_ok hm).initNone hd, hc⟩
    obtain ⟨hi, c, hc⟩ := hi
    apply minimize_init_error
    rw [hi]
    unfold contInitSample
    rw [hc]
    unfold contInit at hc
    rw [hvec] at hc
    simp only at hc
    split at hc
    · cases hc
    · rename_i u hu
      obtain rfl := Except.ok.inj hc
      exact uniform_misfit hu hb _ _

end arrays

/-! ### Concrete cases -/

/-- **C94** is false: `EMNA` with three variables and an array of two lower bounds is constructed; with a list of two
lower bounds it is not. -/
theorem C94_refuted :
    (∃ o, construct Ex.noOther .emna
      [("size_gen", .int 10), ("max_iter", .int 5), ("dead_iter", .int 5), ("n_variables", .int 3),
       ("lower_bound", .array [-1, -2]), ("upper_bound", .int 1)] = .ok o) ∧
    construct Ex.noOther .emna
      [("size_gen", .int 10), ("max_iter", .int 5), ("dead_iter", .int 5), ("n_variables", .int 3),
       ("lower_bound", .list [-1, -2]), ("upper_bound", .int 1)] = .error .assertion :=
  ⟨⟨_, rfl⟩, rfl⟩

/-- An `EMNA` with an array of two lower bounds for three variables. -/
def Ex.misfit : EMNACfg ℚ :=
  { base := { sizeGen := 10, maxIter := 5, deadIter := 5, nVars := 3, alpha := 1 / 2, eliteFactor := 2 / 5,
              parallel := false, initData := none, wNoise := none }
    lower := .array [-1, -2], upper := .scalar 1, lowerFactor := 1 / 2, upperFactor := 100 }

/-- It is constructed, and every run raises. -/
example (f : ℕ → List ℚ → ℚ) (ρ : Rand (Draws ℚ)) : ∃ e b, EMNA id id id Ex.misfit = .ok (e, b) ∧
    minimize Ex.env e f 0 b ρ = .error .valueError :=
  ⟨_, _, rfl, (C94_array_bounds (fl := id) (sq := id)).1 (fac := id) (cfg := Ex.misfit) rfl rfl
    ⟨[-1, -2], .inl ⟨rfl, by simp [Ex.misfit]⟩, by simp [Ex.misfit], by simp⟩⟩

/-- Missing and unknown arguments, in all algorithms. -/
example (c : Algo) : construct Ex.noOther c [("max_iter", .int 5)] = .error .typeError ∧
    construct Ex.noOther c (("lr", .int 5) :: Ex.spedaCall) = .error .typeError :=
  ⟨C94_type_error (.inl ⟨"size_gen", by cases c <;> simp [required], rfl⟩),
    C94_type_error (.inr ⟨("lr", .int 5), List.mem_cons_self, by cases c <;> simp [required], rfl⟩)⟩

/-- `dead_iter = 6`, `max_iter = 5`. -/
example : construct Ex.noOther .boa [("size_gen", .int 10), ("max_iter", .int 5), ("dead_iter", .int 6),
    ("n_variables", .int 3), ("possible_values", .other 0), ("frequency", .other 1)] = .error .assertion :=
  C94_dead_iter (mx := 5) (dead := 6) (by simp [required]) (by simp [required, List.lookup]) rfl rfl (by norm_num)

/-- The default learning rate of a `PBIL` whose call does not give it. -/
example {o : AlgoObj ℚ} (h : construct Ex.noOther .pbil Ex.spedaCall = .ok o) :
    o.args "alpha" = some (.num (1 / 2)) ∧ o.args "size_gen" = some (.int 10) :=
  ⟨C94_values h (.inr rfl), C94_values h (.inl (by simp [required]))⟩

example : ∃ o, construct Ex.noOther .pbil Ex.spedaCall = .ok o := ⟨_, rfl⟩

end Verif
