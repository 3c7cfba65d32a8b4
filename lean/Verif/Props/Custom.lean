/-
C17 (assignment of models and initializers), C18 (settings round-trip), C19 (identifiers), C46 (runs
of `EDACustom`).
-/
import Verif.Lemmas.Custom
import Verif.Props.Archive

set_option linter.unusedSectionVars false

namespace Verif

open Spec PyCost

/-! ### C17 -/

section c17

variable {P I : Type} {len : P → ℕ} {nv : I → ℕ}

theorem lastModel_cons (p : P) (l : List (Assign P I)) :
    lastModel (.pm (.model p) :: l) = (lastModel l).orElse (fun _ => some p) := by
  unfold lastModel
  simp only [List.filterMap_cons, List.getLast?_cons]
  generalize (List.filterMap _ l).getLast? = x
  cases x <;> rfl

theorem lastInit_cons (i : I) (l : List (Assign P I)) :
    lastInit (.init (.init i) :: l) = (lastInit l).orElse (fun _ => some i) := by
  unfold lastInit
  simp only [List.filterMap_cons, List.getLast?_cons]
  generalize (List.filterMap _ l).getLast? = x
  cases x <;> rfl

/-- **C17** what every assignment of a program answers, and which model and initializer the object has
at the end: always the last one assigned, whether or not its assignment raised. -/
theorem C17_last_assigned (o : Slots P I) (l : List (Assign P I)) :
    (runAssigns len nv o l).2 = l.map (answer len nv o.nVars) ∧
    (runAssigns len nv o l).1.nVars = o.nVars ∧
    (runAssigns len nv o l).1.pm = (lastModel l).orElse (fun _ => o.pm) ∧
    (runAssigns len nv o l).1.init = (lastInit l).orElse (fun _ => o.init) := by
  induction l generalizing o with
  | nil => exact ⟨rfl, rfl, rfl, rfl⟩
  | cons a l ih =>
    cases a with
    | pm v =>
      cases v with
      | model p =>
        obtain ⟨h1, h2, h3, h4⟩ := ih { o with pm := some p }
        by_cases hlen : len p = o.nVars
        · simp only [runAssigns, Slots.setPm, hlen, ne_eq, not_true_eq_false, if_false, List.map_cons,
            answer, if_true]
          refine ⟨by rw [h1], h2, ?_, h4⟩
          rw [h3, lastModel_cons]
          cases lastModel l <;> rfl
        · simp only [runAssigns, Slots.setPm, ne_eq, hlen, not_false_eq_true, if_true, List.map_cons,
            answer, if_false]
          refine ⟨by rw [h1], h2, ?_, h4⟩
          rw [h3, lastModel_cons]
          cases lastModel l <;> rfl
      | init i =>
        obtain ⟨h1, h2, h3, h4⟩ := ih o
        simp only [runAssigns, Slots.setPm, List.map_cons, answer]
        exact ⟨by rw [h1], h2, h3, h4⟩
      | other =>
        obtain ⟨h1, h2, h3, h4⟩ := ih o
        simp only [runAssigns, Slots.setPm, List.map_cons, answer]
        exact ⟨by rw [h1], h2, h3, h4⟩
    | init v =>
      cases v with
      | init i =>
        obtain ⟨h1, h2, h3, h4⟩ := ih { o with init := some i }
        by_cases hlen : nv i = o.nVars
        · simp only [runAssigns, Slots.setInit, hlen, ne_eq, not_true_eq_false, if_false, List.map_cons,
            answer, if_true]
          refine ⟨by rw [h1], h2, h3, ?_⟩
          rw [h4, lastInit_cons]
          cases lastInit l <;> rfl
        · simp only [runAssigns, Slots.setInit, ne_eq, hlen, not_false_eq_true, if_true, List.map_cons,
            answer, if_false]
          refine ⟨by rw [h1], h2, h3, ?_⟩
          rw [h4, lastInit_cons]
          cases lastInit l <;> rfl
      | model p =>
        obtain ⟨h1, h2, h3, h4⟩ := ih o
        simp only [runAssigns, Slots.setInit, List.map_cons, answer]
        exact ⟨by rw [h1], h2, h3, h4⟩
      | other =>
        obtain ⟨h1, h2, h3, h4⟩ := ih o
        simp only [runAssigns, Slots.setInit, List.map_cons, answer]
        exact ⟨by rw [h1], h2, h3, h4⟩

/-- **C17** (partial: the wrong *kind* of object) an object that is not a `ProbabilisticModel`
(`GenInit`) is refused with `ValueError` and the EDA is unchanged; a matching object is installed
without an error and nothing else changes. -/
theorem C17_wrong_kind_partial (o : Slots P I) :
    (∀ v, (∀ p, v ≠ .model p) → o.setPm len v = (o, some .valueError)) ∧
    (∀ v, (∀ i, v ≠ .init i) → o.setInit nv v = (o, some .valueError)) ∧
    (∀ p, len p = o.nVars → o.setPm len (.model p) = ({ o with pm := some p }, none)) ∧
    (∀ i, nv i = o.nVars → o.setInit nv (.init i) = ({ o with init := some i }, none)) := by
  refine ⟨?_, ?_, ?_, ?_⟩
  · intro v hv
    cases v with
    | model p => exact absurd rfl (hv p)
    | init i => rfl
    | other => rfl
  · intro v hv
    cases v with
    | init p => exact absurd rfl (hv p)
    | model i => rfl
    | other => rfl
  · intro p hp; simp [Slots.setPm, hp]
  · intro i hi; simp [Slots.setInit, hi]

/-- **C17** a model (initializer) with the wrong number of variables raises — and is installed. -/
theorem C17_wrong_size_installed (o : Slots P I) :
    (∀ p, len p ≠ o.nVars →
      o.setPm len (.model p) = ({ o with pm := some p }, some .exception)) ∧
    (∀ i, nv i ≠ o.nVars →
      o.setInit nv (.init i) = ({ o with init := some i }, some .exception)) := by
  constructor
  · intro p hp; simp [Slots.setPm, hp]
  · intro i hi; simp [Slots.setInit, hi]

end c17

section custom

variable {K : Type} [Field K] [LinearOrder K] [IsStrictOrderedRing K] [FloorRing K]
variable {S L : Type} [DecidableEq L] {lib : Libs S L K} {a : CustomArgs K} {ω : CustomDraws K}
variable {o : Custom S L K}

/-! ### C19 -/

/-- **C19** `EDACustom(pm=k, init=j)` exports `k` and `j`, which are between 1 and 4. -/
theorem C19_exported_ids (h : Custom.new lib a ω = .ok o) :
    1 ≤ a.pm ∧ a.pm ≤ 4 ∧ 1 ≤ a.init ∧ a.init ≤ 4 ∧
    ∃ d, o.exportSettings = .ok d ∧ d.lookup "pm" = some (.int a.pm) ∧
      d.lookup "init" = some (.int a.init) := by
  obtain ⟨_, p, i, hp, hi, _, rfl⟩ := Custom.new_ok h
  obtain ⟨_, h1, h2, h3⟩ := customPm_ok hp
  obtain ⟨h4, h5, h6⟩ := (customInit_ok hi).id
  refine ⟨h2, h3, h5, h6, _, rfl, ?_, ?_⟩
  · rw [h1]; rfl
  · rw [h4]; rfl

/-- **C19** the models behind the identifiers, with the bounds they get. -/
theorem C19_models (h : Custom.new lib a ω = .ok o) : ∃ p i, o.slots.pm = some p ∧ o.slots.init = some i ∧
    (a.pm = 1 → ∃ lo, a.bounds[0]? = some lo ∧ p = .gauss (UniGauss.new a.nVars lo)) ∧
    (a.pm = 2 → ∃ lo up b, a.bounds[0]? = some lo ∧ a.bounds[1]? = some up ∧ p = .bin b ∧ b.n = a.nVars ∧
      b.lb = lo ∧ b.ub = up ∧ lo < up) ∧
    (a.pm = 3 → ∃ lo up b, a.bounds[0]? = some lo ∧ a.bounds[1]? = some up ∧ p = .multi b ∧ b.n = a.nVars ∧
      b.lb = lo ∧ b.ub = up) ∧
    (a.pm = 4 → ∃ b, p = .net b) ∧
    (a.init = 1 → ∃ lo b, a.bounds[0]? = some lo ∧ i = .gauss b ∧ b.n = a.nVars ∧
      ∀ m ∈ b.mean, lo ≤ m ∧ m < 101) ∧
    (a.init = 2 → i = .bin (uniBinInit a.nVars [])) ∧
    (a.init = 3 → ∃ lo up b, a.bounds[0]? = some lo ∧ a.bounds[1]? = some up ∧ i = .multi b ∧ b.n = a.nVars ∧
      ∀ m ∈ b.means, lo ≤ m ∧ m < up + 1) ∧
    (a.init = 4 → ∃ lo up, a.bounds[0]? = some lo ∧ a.bounds[1]? = some up ∧
      i = .uniform { n := a.nVars, lower := .scalar lo, upper := .scalar up }) := by
  obtain ⟨_, p, i, hp, hi, _, rfl⟩ := Custom.new_ok h
  have hb : ∀ k x, boundAt a.bounds k = .ok x → a.bounds[k]? = some x := by
    intro k x hx
    unfold boundAt at hx
    split at hx
    · rename_i y hy; rw [hy, Except.ok.inj hx]
    · cases hx
  refine ⟨p, i, rfl, rfl, ?_, ?_, ?_, ?_, ?_, ?_, ?_, ?_⟩
  · intro h1
    unfold customPm at hp
    rw [if_pos h1] at hp
    cases hb0 : boundAt a.bounds 0 with
    | error err => rw [hb0] at hp; cases hp
    | ok lo => rw [hb0] at hp; exact ⟨lo, hb _ _ hb0, (Except.ok.inj hp).symm⟩
  · intro h2
    unfold customPm at hp
    rw [if_neg (by omega), if_pos h2] at hp
    split at hp
    · rename_i lo up hb0 hb1
      unfold UniBin.new at hp
      split_ifs at hp with hlt
      · exact ⟨lo, up, _, hb _ _ hb0, hb _ _ hb1, (Except.ok.inj hp).symm, rfl, rfl, rfl, hlt⟩
      · cases hp
    · cases hp
    · cases hp
  · intro h3
    unfold customPm at hp
    rw [if_neg (by omega), if_neg (by omega), if_pos h3] at hp
    split at hp
    · rename_i lo up hb0 hb1
      exact ⟨lo, up, _, hb _ _ hb0, hb _ _ hb1, (Except.ok.inj hp).symm, rfl, rfl, rfl⟩
    · cases hp
    · cases hp
  · intro h4
    unfold customPm at hp
    rw [if_neg (by omega), if_neg (by omega), if_neg (by omega), if_pos h4] at hp
    exact ⟨_, (Except.ok.inj hp).symm⟩
  · intro h1
    unfold customInit at hi
    rw [if_pos h1] at hi
    split at hi
    · rename_i lo hb0
      cases hu : uniGaussInit a.nVars [] [] lo 100 ω.choice with
      | error err => rw [hu] at hi; cases hi
      | ok b =>
        rw [hu] at hi
        refine ⟨lo, b, hb _ _ hb0, (Except.ok.inj hi).symm, ?_⟩
        unfold uniGaussInit at hu
        simp only [List.length_nil, ne_eq, not_true_eq_false, if_false, if_true] at hu
        split at hu
        · cases hu
        rename_i m hm
        split at hu
        · cases hu
        obtain rfl := Except.ok.inj hu
        refine ⟨rfl, fun x hx => ?_⟩
        obtain ⟨k1, k2⟩ := arange_mem ((choice_ok hm).2 x hx)
        exact ⟨k1, by linarith⟩
    · cases hi
  · intro h2
    unfold customInit at hi
    rw [if_neg (by omega), if_pos h2] at hi
    exact (Except.ok.inj hi).symm
  · intro h3
    unfold customInit at hi
    rw [if_neg (by omega), if_neg (by omega), if_pos h3] at hi
    split at hi
    · rename_i lo up hb0 hb1
      cases hu : multiGaussInit a.nVars [] [] lo up ω.choice with
      | error err => rw [hu] at hi; cases hi
      | ok b =>
        rw [hu] at hi
        refine ⟨lo, up, b, hb _ _ hb0, hb _ _ hb1, (Except.ok.inj hi).symm, ?_⟩
        unfold multiGaussInit at hu
        simp only [List.length_nil, ne_eq, not_true_eq_false, if_false, if_true] at hu
        split at hu
        · cases hu
        rename_i m hm
        split at hu
        · cases hu
        obtain rfl := Except.ok.inj hu
        exact ⟨rfl, fun x hx => arange_mem ((choice_ok hm).2 x hx)⟩
    · cases hi
    · cases hi
  · intro h4
    unfold customInit at hi
    rw [if_neg (by omega), if_neg (by omega), if_neg (by omega), if_pos h4] at hi
    split at hi
    · rename_i lo up hb0 hb1
      exact ⟨lo, up, hb _ _ hb0, hb _ _ hb1, (Except.ok.inj hi).symm⟩
    · cases hi
    · cases hi

/-- **C19** every other identifier is refused with `ValueError`. -/
theorem C19_other_ids_rejected (hd : a.deadIter ≤ a.maxIter) :
    (¬ (1 ≤ a.pm ∧ a.pm ≤ 4) → Custom.new lib a ω = .error .valueError) ∧
    (¬ (1 ≤ a.init ∧ a.init ≤ 4) → ∀ p, customPm lib a = .ok p →
      Custom.new lib a ω = .error .valueError) := by
  constructor
  · intro h
    unfold Custom.new customPm
    rw [if_neg (not_not.2 hd), if_neg (by omega), if_neg (by omega), if_neg (by omega),
      if_neg (by omega)]
  · intro h p hp
    have hl := (customPm_ok hp).1
    unfold Custom.new
    rw [if_neg (not_not.2 hd), hp]
    simp only [Slots.setPm, hl, ne_eq, not_true_eq_false, if_false]
    have : customInit a ω.choice = .error .valueError := by
      unfold customInit
      rw [if_neg (by omega), if_neg (by omega), if_neg (by omega), if_neg (by omega)]
    rw [this]

/-- Arguments for which `EDACustom` can be constructed with identifiers 1 to 4. -/
structure CustomOk (a : CustomArgs K) (lo up : K) : Prop where
  dead : a.deadIter ≤ a.maxIter
  size : 0 ≤ a.sizeGen
  bounds : a.bounds = [lo, up]
  pm : 1 ≤ a.pm ∧ a.pm ≤ 4
  bin : a.pm = 2 → lo < up
  init : 1 ≤ a.init ∧ a.init ≤ 4
  gauss : a.init = 1 → -200 < lo ∧ lo < 101
  multi : a.init = 3 → lo < up + 1

/-- **C19** identifiers 1 to 4 are accepted for usable bounds. -/
theorem C19_constructs {lo up : K} (h : CustomOk a lo up) : ∃ o, Custom.new lib a ω = .ok o := by
  have hb0 : boundAt a.bounds 0 = .ok lo := by rw [h.bounds]; rfl
  have hb1 : boundAt a.bounds 1 = .ok up := by rw [h.bounds]; rfl
  obtain ⟨p, hp⟩ : ∃ p, customPm lib a = .ok p := by
    unfold customPm
    rw [hb0, hb1]
    by_cases h1 : a.pm = 1
    · rw [if_pos h1]; exact ⟨_, rfl⟩
    rw [if_neg h1]
    by_cases h2 : a.pm = 2
    · rw [if_pos h2]
      simp only [UniBin.new, if_pos (h.bin h2)]
      exact ⟨_, rfl⟩
    rw [if_neg h2]
    by_cases h3 : a.pm = 3
    · rw [if_pos h3]; exact ⟨_, rfl⟩
    rw [if_neg h3, if_pos (by have := h.pm; omega)]
    exact ⟨_, rfl⟩
  obtain ⟨i, hi⟩ : ∃ i, customInit a ω.choice = .ok i := by
    unfold customInit
    rw [hb0, hb1]
    by_cases h1 : a.init = 1
    · rw [if_pos h1]
      obtain ⟨g1, g2⟩ := h.gauss h1
      have e1 : lo < 100 + 1 := by linarith
      have e2 : |lo / 4| < |(100 : K) / 2| := by
        rw [abs_of_pos (show (0 : K) < 100 / 2 by norm_num), abs_lt]
        constructor <;> linarith
      obtain ⟨m, hm⟩ := choice_isOk (n := a.nVars) (k := ω.choice 0) |>.2 (.inl (arange_ne_nil.2 e1))
      obtain ⟨s, hs⟩ := choice_isOk (n := a.nVars) (k := ω.choice 1) |>.2 (.inl (arange_ne_nil.2 e2))
      simp only [uniGaussInit, List.length_nil, ne_eq, not_true_eq_false, if_false, if_true, hm, hs]
      exact ⟨_, rfl⟩
    rw [if_neg h1]
    by_cases h2 : a.init = 2
    · rw [if_pos h2]; exact ⟨_, rfl⟩
    rw [if_neg h2]
    by_cases h3 : a.init = 3
    · rw [if_pos h3]
      have e1 := h.multi h3
      obtain ⟨m, hm⟩ := choice_isOk (n := a.nVars) (k := ω.choice 0) |>.2 (.inl (arange_ne_nil.2 e1))
      obtain ⟨s, hs⟩ := choice_isOk (n := a.nVars * a.nVars) (k := ω.choice 1) |>.2
        (.inl (arange_ne_nil.2 e1))
      simp only [multiGaussInit, List.length_nil, ne_eq, not_true_eq_false, if_false, if_true, hm, hs]
      exact ⟨_, rfl⟩
    rw [if_neg h3, if_pos (by have := h.init; omega)]
    exact ⟨_, rfl⟩
  exact ⟨_, Custom.new_isOk h.dead hp hi h.size⟩

/-- **C19** (partial: except for one pair) different classes have different identifiers. -/
theorem C19_distinct_partial :
    (∀ c c' : PmClass, c.id = c'.id → c = c' ∨ (c = .uniKde ∧ c' = .bn) ∨ (c = .bn ∧ c' = .uniKde)) ∧
    ∀ c c' : InitClass, c.id = c'.id → c = c' := by
  constructor
  · intro c c' h
    cases c <;> cases c' <;> first | (left; rfl) | (right; left; exact ⟨rfl, rfl⟩) |
      (right; right; exact ⟨rfl, rfl⟩) | (exfalso; revert h; decide)
  · intro c c' h
    cases c <;> cases c' <;> first | rfl | (exfalso; revert h; decide)

/-- The identifier that the class of a model has according to the documentation. -/
def pmId : Pm S L K → ℤ
  | .gauss _ => 1
  | .bin _ => 2
  | .multi _ => 3
  | .net { kind := .gaussian, .. } => 4
  | .net { kind := .semiparametric, .. } => 5
  | .net { kind := .kde, .. } => 6
  | .kde _ => 7
  | .adapt _ _ => 8

/-- The identifier of an initializer. -/
def iniId : Ini K → ℤ
  | .gauss _ => 1
  | .bin _ => 2
  | .multi _ => 3
  | .uniform _ => 4

/-- **C19** whatever model and initializer were assigned, the settings name their identifiers. -/
theorem C19_assigned_ids {p : Pm S L K} {i : Ini K} (hp : o.slots.pm = some p)
    (hi : o.slots.init = some i) : ∃ d, o.exportSettings = .ok d ∧
      d.lookup "pm" = some (.int (pmId p)) ∧ d.lookup "init" = some (.int (iniId i)) := by
  have h1 : p.cls.id = pmId p := by
    cases p with
    | net b => obtain ⟨k, _⟩ := b; cases k <;> rfl
    | _ => rfl
  have h2 : i.cls.id = iniId i := by cases i <;> rfl
  unfold Custom.exportSettings
  rw [hp, hi]
  refine ⟨_, rfl, ?_, ?_⟩
  · rw [← h1]; rfl
  · rw [← h2]; rfl

/-- **C19** is false: `UniKDE` and `BN` share an identifier. -/
theorem C19_refuted : PmClass.uniKde ≠ PmClass.bn ∧ PmClass.uniKde.id = PmClass.bn.id := by
  decide

/-! ### C18 -/

/-- **C18** is false for *every* object: `read_settings` of the exported settings raises
`KeyError: 'size-gen'`. -/
theorem C18_refuted (o : Custom S L K) {d : Dict K} (h : o.exportSettings = .ok d) :
    readSettings lib d ω = .error (.keyError "size-gen") := by
  unfold Custom.exportSettings at h
  split at h
  · rw [← Except.ok.inj h]
    rfl
  · cases h

/-- **C18** (partial: after renaming the keys `size_gen` and `dead_iter:`, and for objects whose model
and initializer were not reassigned) the settings of a constructed object, read back with any draws,
give an object with the same settings; with the same draws, the same object. -/
theorem C18_renamed_partial (h : Custom.new lib a ω = .ok o) (ω' : CustomDraws K) :
    ∃ d, o.exportSettings = .ok d ∧
      readSettings lib (d.map (fun kv => (readKey kv.1, kv.2))) ω = .ok o ∧
      ∃ o', readSettings lib (d.map (fun kv => (readKey kv.1, kv.2))) ω' = .ok o' ∧
        o'.exportSettings = .ok d := by
  have h0 := h
  obtain ⟨hd, p, i, hp, hi, hs, rfl⟩ := Custom.new_ok h
  obtain ⟨_, h1, _, _⟩ := customPm_ok hp
  obtain ⟨h4, _, _⟩ := (customInit_ok hi).id
  obtain ⟨i', hi'⟩ := customInit_draws (k' := ω'.choice) hi
  have h4' := ((customInit_ok hi').id).1
  have hn' := Custom.new_isOk (lib := lib) (ω := ω') hd hp hi' hs
  generalize ho : (⟨a.sizeGen, a.maxIter, a.deadIter, a.alpha, a.eliteFactor, a.disp, a.bounds,
    ⟨a.nVars, some p, some i'⟩⟩ : Custom S L K) = o' at hn'
  have he' : o'.exportSettings = .ok
      [("size_gen", .int a.sizeGen), ("max_iter", .int a.maxIter), ("dead_iter:", .int a.deadIter),
       ("n_variables", .int a.nVars), ("pm", .int a.pm), ("init", .int a.init),
       ("alpha", .num a.alpha), ("elite_factor", .num a.eliteFactor), ("disp", .bool a.disp),
       ("bounds", .nums a.bounds)] := by
    rw [← ho]
    simp only [Custom.exportSettings, h1, h4']
  refine ⟨_, ?_, ?_, o', ?_, he'⟩
  · simp only [Custom.exportSettings, h1, h4]
  · rw [← h0]
    rfl
  · rw [← hn']
    rfl

/-- **C18** even with the keys renamed, an object whose model was replaced by one of another class
(`AdaptUniGauss`, `UniKDE`, `SPBN`, `KDEBN`) cannot be read back. -/
theorem C18_other_models (p : Pm S L K) (hp : o.slots.pm = some p) (hd : o.deadIter ≤ o.maxIter)
    (hother : (∃ α b, p = .adapt α b) ∨ (∃ b, p = .kde b) ∨ ∃ b : BNet S L K, p = .net b ∧ b.kind ≠ .gaussian)
    {d : Dict K} (h : o.exportSettings = .ok d) :
    readSettings lib (d.map (fun kv => (readKey kv.1, kv.2))) ω = .error .valueError := by
  have hid : 4 < p.cls.id := by
    rcases hother with ⟨α, b, rfl⟩ | ⟨b, rfl⟩ | ⟨b, rfl, hk⟩
    · exact (by decide : (4 : ℤ) < 8)
    · exact (by decide : (4 : ℤ) < 7)
    · unfold Pm.cls
      dsimp only
      cases hb : b.kind with
      | gaussian => exact absurd hb hk
      | semiparametric => exact (by decide : (4 : ℤ) < 5)
      | kde => exact (by decide : (4 : ℤ) < 6)
  unfold Custom.exportSettings at h
  rw [hp] at h
  cases hi : o.slots.init with
  | none => rw [hi] at h; cases h
  | some i =>
    rw [hi] at h
    rw [← Except.ok.inj h]
    exact (C19_other_ids_rejected (lib := lib) (ω := ω)
      (a := ⟨o.sizeGen, o.maxIter, o.deadIter, o.slots.nVars, o.alpha, o.eliteFactor, o.disp,
        p.cls.id, i.cls.id, o.bounds⟩) hd).1 (fun hc => absurd hc.2 (not_le.2 hid))

/-! ### C46 -/

section c46

variable {C : Type} [PyCost C] {env : Env C} {f : ℕ → List K → C} {ftol : C} {ρ : Rand (Draws K)}
variable {fl : K → K}

/-- **C46** is false for the initializer 2: whatever the model, no run with at least two generations
succeeds; the noise (a float matrix) cannot be added to the integer individuals. -/
theorem C46_binary_init_raises [LawfulCost C] [UniformCost C] (hv : env.Valid)
    (h : Custom.new lib a ω = .ok o) (hi : a.init = 2) (hs : 1 ≤ a.sizeGen) (hmax : 2 ≤ a.maxIter)
    (htr : 0 ≤ selLen fl a.sizeGen a.alpha) (hnum : ∀ k r, IsNum (f k r)) :
    o.minimize fl lib env f ftol ρ = .error .ufuncType := by
  obtain ⟨hd, p, i, hp, hi', _, rfl⟩ := Custom.new_ok h
  have hg := customInit_ok hi'
  unfold Custom.minimize
  dsimp only
  set o : Custom S L K := ⟨a.sizeGen, a.maxIter, a.deadIter, a.alpha, a.eliteFactor, a.disp, a.bounds,
    ⟨a.nVars, some p, some i⟩⟩ with ho
  obtain ⟨e, he⟩ := (mkEda_isOk (fl := fl) (cfg := o.base)
    (init := fun ω => i.sample lib o.sizeGen ω) (learn := fun (p : Pm S L K) g _ ω => p.learn lib g ω)
    (sample := fun p ω => p.sample lib o.sizeGen ω)).2 ⟨hd, fun d hdd => by cases hdd⟩
  have he' : o.eda fl lib i = .ok e := he
  rw [he']
  dsimp only
  have hm := mkEda_ok he
  obtain ⟨g, hsm, hlen, _, hdt⟩ := hg.sample (lib := lib) (by omega : 0 ≤ a.sizeGen) ρ.init
  have hinit : e.initGen ρ.init = .ok g := by rw [hm.initNone rfl]; exact hsm
  obtain ⟨s0, h0⟩ := start_isOk (f := f) (pm := p) (m := 1) hv hnum le_rfl
    (by rw [hm.parallel]; intro hc; cases hc) hinit (by omega)
  have hn0 : o.base.noiseAttr = 1 / 2 := by
    unfold BaseCfg.noiseAttr Custom.base
    dsimp only
    rw [if_neg (by norm_num)]
  have hpos : (0 : K) < 1 / 2 := by norm_num
  have hnoise : e.mkNoise ρ.noise = .ok
      (addNoise (.matrix (selLen fl a.sizeGen a.alpha).toNat a.nVars ρ.noise)) := by
    rw [hm.mkNoise, hn0]
    simp only [mkWhiteNoise, if_neg hpos.ne', if_neg (show ¬ ((1 : K) / 2 = -1) by
      intro h; rw [h] at hpos; linarith), if_neg (not_lt.2 hpos.le)]
    rw [if_neg (by show ¬ selLen fl a.sizeGen a.alpha < 0; omega)]
    rfl
  refine minimize_noise_error (by rw [hm.maxIter]; exact hmax) h0 hnoise ?_
  intro s1 ht
  obtain ⟨_, _, _, _, _, hs0⟩ := start_ok h0
  have hgen : g = s0.gen := by have := hs0.init; rw [hinit] at this; exact Except.ok.inj this
  obtain ⟨_, _, _, hd1, _⟩ := truncation_shape ht
  have hint : s1.gen.dt = .int := by
    rw [hd1, hs0.elite, ← hgen, hdt, if_pos hi]; rfl
  unfold addNoise
  simp only [hint]

/-- The models of `EDACustom` during a run. -/
inductive GoodPm (n : ℕ) (names : List L) : Pm S L K → ℤ → Prop
  | gauss {b : UniGauss K} {lb : K} : b.Good n lb → GoodPm n names (.gauss b) 1
  | bin {b : UniBin K} : b.n = n → b.p.length = n → GoodPm n names (.bin b) 2
  | multi {b : MultiGauss K} : b.Good n → GoodPm n names (.multi b) 3
  | net {b : BNet S L K} : b.vars = names → GoodPm n names (.net b) 4

theorem customPm_good {p : Pm S L K} (h : customPm lib a = .ok p) :
    GoodPm a.nVars ((List.range a.nVars).map lib.name) p a.pm := by
  unfold customPm at h
  split at h
  · rename_i h1
    cases hb : boundAt a.bounds 0 <;> rw [hb] at h <;>
      simp only [Except.map, Except.ok.injEq, reduceCtorEq] at h
    subst h
    rw [h1]
    exact .gauss (UniGauss.new_good _ _)
  split at h
  · rename_i h1
    split at h
    · rename_i lo up _ _
      cases hb : UniBin.new a.nVars up lo <;> rw [hb] at h <;>
        simp only [Except.map, Except.ok.injEq, reduceCtorEq] at h
      subst h
      obtain ⟨_, rfl⟩ := UniBin.new_ok hb
      rw [h1]
      exact .bin rfl (by simp)
    · cases h
    · cases h
  split at h
  · rename_i h1
    split at h
    · rw [← Except.ok.inj h, h1]
      exact .multi (MultiGauss.new_good _ _ _)
    · cases h
    · cases h
  split at h
  · rename_i h1
    rw [← Except.ok.inj h, h1]
    exact .net rfl
  · cases h

theorem GoodPm.learn {n : ℕ} {names : List L} {p : Pm S L K} {z : ℤ} (hp : GoodPm n names p z)
    (hlen : names.length = n) {q : ℕ} (hsq : z = 1 → IsSqrt lib.sq) (h2 : z = 3 → 2 ≤ n ∧ 2 ≤ q)
    (hw : z = 4 → Works lib.net names q) {g : Gen (List K)} (hc : g.cols = n) (hr : Rect n g.rows)
    (hne : g.rows ≠ []) (hq : q ≤ g.rows.length) (ω : Draws K) :
    ∃ p', p.learn lib g ω = .ok p' ∧ GoodPm n names p' z := by
  cases hp with
  | gauss h =>
    obtain ⟨b', h1, h2, _⟩ := UniGauss.learn_good (hsq rfl) h hc hne
    exact ⟨.gauss b', by simp only [Pm.learn, h1]; rfl, .gauss h2⟩
  | @bin b hn hp =>
    obtain ⟨b', h1⟩ : ∃ b', b.learn lib.fl g.rows = .ok b' := by
      cases hrows : g.rows with
      | nil => exact absurd hrows hne
      | cons r rs => exact ⟨_, rfl⟩
    obtain ⟨_, k1, _, _, k2⟩ := UniBin.learn_ok h1
    refine ⟨.bin b', by simp only [Pm.learn, h1]; rfl, .bin (by rw [k1, hn]) ?_⟩
    rw [k2, clipProbs_length, List.length_map]
    exact (colSums_spec hne hr).1
  | multi h =>
    obtain ⟨hn, hq2⟩ := h2 rfl
    obtain ⟨b', h1, h3⟩ := MultiGauss.learn_good (sq := lib.sq) h hc hn (by omega)
    exact ⟨.multi b', by simp only [Pm.learn, h1]; rfl, .multi h3⟩
  | net h =>
    obtain ⟨b', h1, h3⟩ := netLearn_isOk (hw rfl) h (g := g) (by rw [hc, hlen]) hq ω
    exact ⟨.net b', by simp only [Pm.learn, h1]; rfl, .net h3⟩

theorem GoodPm.sample {n : ℕ} {names : List L} {p : Pm S L K} {z : ℤ} (hp : GoodPm n names p z)
    (hlen : names.length = n) {q : ℕ} (hw : z = 4 → Works lib.net names q) {size : ℤ}
    (hs : 0 ≤ size) (ω : Draws K) :
    ∃ g, p.sample lib size ω = .ok g ∧ NumAny n g ∧ (g.rows.length : ℤ) = size := by
  cases hp with
  | gauss h =>
    refine ⟨_, UniGauss.sample_eq h hs ω, ⟨rfl, ?_, by simp⟩, by simp; omega⟩
    intro r hr
    obtain ⟨i, _, rfl⟩ := List.mem_map.1 hr
    simp
  | bin hn hp =>
    refine ⟨_, UniBin.sample_of_length (by rw [hn, hp]) hs, ⟨hn, ?_, by simp⟩, by simp; omega⟩
    intro r hr
    obtain ⟨i, _, rfl⟩ := List.mem_map.1 hr
    rw [binRow_length, hn]
  | multi h =>
    refine ⟨_, MultiGauss.sample_eq h hs ω, ⟨rfl, ?_, by simp⟩, by simp; omega⟩
    intro r hr
    obtain ⟨i, _, rfl⟩ := List.mem_map.1 hr
    simp
  | @net b h =>
    obtain ⟨g, hg⟩ := netSample_isOk (hw rfl) h hs ω
    obtain ⟨h1, h2, h3, h4⟩ := netSample_shape hg
    have := h4 (hw rfl).sized
    rw [h, hlen] at h2 h3
    exact ⟨g, hg, ⟨h2, h3, by rw [h1]; simp⟩, this⟩

/-- **C46** (partial: initializers 1, 3 and 4) every model identifier with usable parameters: the
object is constructed and every run succeeds, for all draws and every cost function that returns
numbers. -/
theorem C46_runs_partial [LawfulCost C] [UniformCost C] (hv : env.Valid) {lo up : K}
    (hok : CustomOk a lo up) (hi : a.init ≠ 2) (hsize : 1 ≤ a.sizeGen)
    (htr : 1 ≤ selLen fl a.sizeGen a.alpha) (hle : selLen fl a.sizeGen a.alpha ≤ a.sizeGen)
    (hsq : a.pm = 1 → IsSqrt lib.sq) (h3 : a.pm = 3 → 2 ≤ a.nVars ∧ 2 ≤ selLen fl a.sizeGen a.alpha)
    (h4 : a.pm = 4 → Works lib.net ((List.range a.nVars).map lib.name)
      (selLen fl a.sizeGen a.alpha).toNat)
    (hnum : ∀ k r, IsNum (f k r)) :
    ∃ o, Custom.new lib a ω = .ok o ∧ ∃ res s, o.minimize fl lib env f ftol ρ = .ok (res, s) := by
  obtain ⟨o, h⟩ := C19_constructs (lib := lib) (ω := ω) hok
  refine ⟨o, h, ?_⟩
  obtain ⟨hd, p, i, hp, hi', _, rfl⟩ := Custom.new_ok h
  have hg := customInit_ok hi'
  have hpm := customPm_good hp
  unfold Custom.minimize
  dsimp only
  set o : Custom S L K := ⟨a.sizeGen, a.maxIter, a.deadIter, a.alpha, a.eliteFactor, a.disp, a.bounds,
    ⟨a.nVars, some p, some i⟩⟩ with ho
  obtain ⟨e, he⟩ := (mkEda_isOk (fl := fl) (cfg := o.base)
    (init := fun ω => i.sample lib o.sizeGen ω) (learn := fun (p : Pm S L K) g _ ω => p.learn lib g ω)
    (sample := fun p ω => p.sample lib o.sizeGen ω)).2 ⟨hd, fun d hdd => by cases hdd⟩
  have he' : o.eda fl lib i = .ok e := he
  rw [he']
  dsimp only
  have hn0 : o.base.noiseAttr = 1 / 2 := by
    unfold BaseCfg.noiseAttr Custom.base
    dsimp only
    rw [if_neg (by norm_num)]
  refine minimize_progressG hv (mkEda_noRaise_mixed (ρ := ρ) env.cpu he (m := a.sizeGen.toNat)
    (P := fun p => GoodPm a.nVars ((List.range a.nVars).map lib.name) p a.pm) (by omega) rfl htr
    (by rw [hn0]; norm_num) (by show selLen fl a.sizeGen a.alpha ≤ _; omega) rfl ?_ ?_ ?_) hnum hpm
  · obtain ⟨g, h1, h2, h3, h4⟩ := hg.sample (lib := lib) (by omega : 0 ≤ a.sizeGen) ρ.init
    rw [if_neg hi] at h4
    exact ⟨g, h1, ⟨h3.cols, h3.rect, h4⟩, by omega⟩
  · intro p' g el t hP hc hr hne hq
    refine hP.learn (lib := lib) (q := (selLen fl a.sizeGen a.alpha).toNat) (by simp) hsq
      (fun hz => ⟨(h3 hz).1, by have := (h3 hz).2; omega⟩) h4 hc hr hne ?_ _
    have : min (selLen fl a.sizeGen a.alpha).toNat a.sizeGen.toNat ≤ g.rows.length := hq
    omega
  · intro p' t hP
    obtain ⟨g, h1, h2, h3⟩ := hP.sample (lib := lib) (by simp) h4 (by omega : 0 ≤ a.sizeGen)
      (ρ.sample t)
    exact ⟨g, h1, h2, by omega⟩

end c46

end custom

/-! ### Concrete cases -/

namespace Ex

/-- Library functions for examples; the networks of `Ex.alib` have one variable, named `0`. -/
def clib : Libs (List (List ℚ)) ℕ ℚ :=
  { fl := id, sq := id, fac := id, isPD := fun _ => true, h2 := fun _ _ => 1, net := alib, name := id }

/-- `EDACustom(size_gen=4, max_iter=3, dead_iter=3, n_variables=1, alpha=1/2, elite_factor=0,
disp=False, pm=2, init=4, bounds=(1/5, 4/5))`. -/
def cargs : CustomArgs ℚ :=
  { sizeGen := 4, maxIter := 3, deadIter := 3, nVars := 1, alpha := 1/2, eliteFactor := 0
    disp := false, pm := 2, init := 4, bounds := [1/5, 4/5] }

def cdraws : CustomDraws ℚ := { choice := fun i j => i + j, sample := fun _ _ => 1/2 }

theorem cargs_ok : CustomOk cargs (1/5) (4/5) where
  dead := by decide
  size := by decide
  bounds := rfl
  pm := by decide
  bin := by intro _; norm_num
  init := by decide
  gauss := by intro h; exact absurd h (by decide)
  multi := by intro h; exact absurd h (by decide)

/-- The object, and the same object after assigning a model and an initializer with three variables
(both assignments raise). -/
def cobj : Except PyErr (Custom (List (List ℚ)) ℕ ℚ) := Custom.new clib cargs cdraws

def bigPm : Pm (List (List ℚ)) ℕ ℚ := .bin { n := 3, p := [1/2, 1/2, 1/2], ub := 4/5, lb := 1/5 }
def bigInit : Ini ℚ := .uniform { n := 3, lower := .scalar 0, upper := .scalar 1 }

def cobj3 : Except PyErr (Custom (List (List ℚ)) ℕ ℚ) :=
  cobj.map (fun o => { o with
    slots := (runAssigns Pm.len Ini.nVars o.slots [.pm (.model bigPm), .init (.init bigInit)]).1 })

def crun (o : Except PyErr (Custom (List (List ℚ)) ℕ ℚ)) :
    Except PyErr (EdaResult (List ℚ) ℚ × St (List ℚ) ℚ (Pm (List (List ℚ)) ℕ ℚ)) :=
  o.bind (fun o => o.minimize id clib env cost 0 rand)

end Ex

/-- **C17** is false: in an EDA with one variable, a model and an initializer with three variables are
assigned.  Both assignments raise — and the next run succeeds with the refused objects: it returns an
individual of three variables, although the settings still say `n_variables = 1`. -/
theorem C17_refuted : ∃ o, Custom.new Ex.clib Ex.cargs Ex.cdraws = .ok o ∧ o.slots.nVars = 1 ∧
    (runAssigns Pm.len Ini.nVars o.slots [.pm (.model Ex.bigPm), .init (.init Ex.bigInit)]).2 =
      [some .exception, some .exception] ∧
    ∃ res s, ({ o with slots := (runAssigns Pm.len Ini.nVars o.slots
      [.pm (.model Ex.bigPm), .init (.init Ex.bigInit)]).1 } : Custom _ _ _).minimize id Ex.clib
        Ex.env Ex.cost 0 Ex.rand = .ok (res, s) ∧ res.bestInd = .row [1, 1, 1] := by
  obtain ⟨o, ho⟩ := C19_constructs (lib := Ex.clib) (ω := Ex.cdraws) Ex.cargs_ok
  obtain ⟨_, p, i, hp, hi, _, rfl⟩ := Custom.new_ok ho
  refine ⟨_, ho, rfl, rfl, ?_⟩
  have hr : (Ex.crun Ex.cobj3).toOption.map (fun x => x.1.bestInd) =
      some (.row [1, 1, 1]) := by
    decide +kernel
  unfold Ex.crun Ex.cobj3 Ex.cobj at hr
  rw [ho] at hr
  obtain ⟨⟨res, s⟩, hs, h3⟩ := Ex.facts_of hr
  exact ⟨res, s, hs, h3⟩

/-- C17: a string is refused, a model of the right size accepted, a model of the wrong size "refused"
but kept. -/
example : runAssigns Pm.len Ini.nVars
    (⟨1, none, none⟩ : Slots (Pm (List (List ℚ)) ℕ ℚ) (Ini ℚ))
    [.pm .other, .pm (.model (.bin { n := 1, p := [1/2], ub := 4/5, lb := 1/5 })), .pm (.model Ex.bigPm)] =
    (⟨1, some Ex.bigPm, none⟩, [some .valueError, none, some .exception]) := rfl

/-- C19, C18: the object of `Ex.cargs` is constructed; its settings have `pm = 2`, `init = 4`; reading
them back raises, after renaming two keys it works. -/
example : ∃ o d, Custom.new Ex.clib Ex.cargs Ex.cdraws = .ok o ∧ o.exportSettings = .ok d ∧
    d.lookup "pm" = some (.int 2) ∧ d.lookup "init" = some (.int 4) ∧
    readSettings Ex.clib d Ex.cdraws = .error (.keyError "size-gen") ∧
    readSettings Ex.clib (d.map (fun kv => (readKey kv.1, kv.2))) Ex.cdraws = .ok o := by
  obtain ⟨o, ho⟩ := C19_constructs (lib := Ex.clib) (ω := Ex.cdraws) Ex.cargs_ok
  obtain ⟨d, hd, h1, h2⟩ := (C19_exported_ids ho).2.2.2.2
  obtain ⟨d', hd', h3, _⟩ := C18_renamed_partial ho Ex.cdraws
  rw [hd] at hd'
  cases Except.ok.inj hd'
  exact ⟨o, d, ho, hd, h1, h2, C18_refuted o hd, h3⟩

/-- C19: `pm=5` is refused. -/
example : Custom.new Ex.clib { Ex.cargs with pm := 5 } Ex.cdraws = .error .valueError :=
  (C19_other_ids_rejected (by decide)).1 (by decide)

/-- C46: with `init=4` the run succeeds. -/
example : ∃ o, Custom.new Ex.clib Ex.cargs Ex.cdraws = .ok o ∧
    ∃ res s, o.minimize id Ex.clib Ex.env Ex.cost 0 Ex.rand = .ok (res, s) :=
  C46_runs_partial Ex.env_valid Ex.cargs_ok (by decide) (by decide) (by decide +kernel)
    (by decide +kernel) (by intro h; exact absurd h (by decide))
    (by intro h; exact absurd h (by decide)) (by intro h; exact absurd h (by decide))
    (fun _ _ => field_isNum _)

/-- **C46** is false: with the valid identifiers `pm=2` and `init=2` the object is constructed and its
run of three generations raises. -/
theorem C46_refuted : ∃ o, Custom.new Ex.clib { Ex.cargs with init := 2 } Ex.cdraws = .ok o ∧
    o.minimize id Ex.clib Ex.env Ex.cost 0 Ex.rand = .error .ufuncType := by
  have hok : CustomOk { Ex.cargs with init := 2 } (1/5) (4/5) :=
    { Ex.cargs_ok with
      init := by decide
      gauss := by intro h; exact absurd h (by decide)
      multi := by intro h; exact absurd h (by decide) }
  obtain ⟨o, ho⟩ := C19_constructs (lib := Ex.clib) (ω := Ex.cdraws) hok
  exact ⟨o, ho, C46_binary_init_raises Ex.env_valid ho rfl (by decide) (by decide)
    (by decide +kernel) (fun _ _ => field_isNum _)⟩

end Verif
