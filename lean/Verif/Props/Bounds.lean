/-
C61: what happens without bounds.
-/
import Verif.Props.Kde
import Verif.Props.Archive
import Verif.Props.Continuous
import Verif.Props.MultiGauss

set_option linter.unusedSectionVars false

namespace Verif

variable {K : Type} [Field K] [LinearOrder K] [IsStrictOrderedRing K] [FloorRing K] {C : Type} [PyCost C]
variable {fl sq : K → K} {env : Env C} {f : ℕ → List K → C} {ftol : C} {ρ : Rand (Draws K)}

/-- The exception raised for a missing bound: a plain `Exception` if the other bound is a list or an array, `TypeError`
if it is a number or missing as well. -/
def noBoundErr : Bound K → Bound K → PyErr
  | .list _, _ => .exception
  | .array _, _ => .exception
  | _, .list _ => .exception
  | _, .array _ => .exception
  | _, _ => .typeError

theorem uniform_none {n : ℕ} {lower upper : Bound K} {u : UniformInit K}
    (hu : UniformInit.new n lower upper = .ok u) (hb : lower = .none ∨ upper = .none) (size : ℤ)
    (ω : Draws K) : u.sample fl size ω = .error (noBoundErr lower upper) := by
  have hu' : u = { n := n, lower := lower, upper := upper } := by
    unfold UniformInit.new at hu
    split at hu
    · cases hu
    split at hu
    · cases hu
    exact (Except.ok.inj hu).symm
  subst hu'
  have h : lower.isNone = true ∨ upper.isNone = true := by
    rcases hb with rfl | rfl
    · exact .inl rfl
    · exact .inr rfl
  unfold UniformInit.sample noBoundErr
  simp only
  rw [if_pos h]
  rcases hb with rfl | rfl
  · cases upper <;> rfl
  · cases lower <;> rfl

/-- A run fails with the error of the initial generation, before any evaluation. -/
theorem minimize_init_error {R σ Ω : Type} {e : Eda R σ Ω} {f : ℕ → R → C} {pm : σ} {ρ : Rand Ω}
    {err : PyErr} (h : e.initGen ρ.init = .error err) : minimize env e f ftol pm ρ = .error err := by
  unfold minimize start
  rw [h]

/-- **C61** EMNA, EGNA, SPEDA, MultivariateKEDA, UnivariateKEDA and (if no `vector` is given) UMDAc and
PBIL: an object constructed with `None` as a bound and without `init_data` never reaches the first
evaluation; `minimize` raises, whatever the cost function is. -/
theorem C61_no_bounds :
    (∀ {fac : List (List K) → List (List K)} {cfg : EMNACfg K}
      {e : Eda (List K) (MultiGauss K) (Draws K)} {b pm : MultiGauss K},
      EMNA fl sq fac cfg = .ok (e, b) → cfg.base.initData = none →
      (cfg.lower = .none ∨ cfg.upper = .none) →
      minimize env e f ftol pm ρ = .error (noBoundErr cfg.lower cfg.upper)) ∧
    (∀ {S L : Type} [DecidableEq L] {lib : NetLib S L K (Draws K)} {name : ℕ → L}
      {cfg : NetCfg K L} {e : Eda (List K) (BNet S L K) (Draws K)} {b pm : BNet S L K},
      EGNA fl lib name cfg = .ok (e, b) → cfg.base.initData = none →
      (cfg.lower = .none ∨ cfg.upper = .none) →
      minimize env e f ftol pm ρ = .error (noBoundErr cfg.lower cfg.upper)) ∧
    (∀ {S L : Type} [DecidableEq L] {kind : BnType} {lib : NetLib S L K (Draws K)} {name : ℕ → L}
      {l : Num K} {cfg : NetCfg K L} {e : Eda (List K) (Arch S L K) (Draws K)} {b pm : Arch S L K},
      archEda kind fl lib name l cfg = .ok (e, b) → cfg.base.initData = none →
      (cfg.lower = .none ∨ cfg.upper = .none) →
      minimize env e f ftol pm ρ = .error (noBoundErr cfg.lower cfg.upper)) ∧
    (∀ {isPD : List (List K) → Bool} {h2 : ℕ → ℕ → K} {fac : List (List K) → List (List K)}
      {cfg : KedaCfg K} {e : Eda (List K) (UniKDE K) (Draws K)} {b pm : UniKDE K},
      UnivariateKEDA fl isPD h2 fac cfg = .ok (e, b) → cfg.base.initData = none →
      (cfg.lower = .none ∨ cfg.upper = .none) →
      minimize env e f ftol pm ρ = .error (noBoundErr cfg.lower cfg.upper)) ∧
    (∀ {cfg : UMDAcCfg K} {e : Eda (List K) (UniGauss K) (Draws K)} {b pm : UniGauss K},
      (UMDAc fl sq cfg = .ok (e, b) ∨ PBIL fl sq cfg = .ok (e, b)) → cfg.base.initData = none →
      cfg.vector = none → (cfg.lower = .none ∨ cfg.upper = .none) →
      minimize env e f ftol pm ρ = .error (noBoundErr cfg.lower cfg.upper)) := by
  have gen : ∀ {n : ℕ} {lower upper : Bound K} {size : ℤ} {ω : Draws K}
      (_ : ∃ u, UniformInit.new n lower upper = .ok u) (_ : lower = .none ∨ upper = .none),
      uniformInitSample fl n lower upper size ω = .error (noBoundErr lower upper) := by
    rintro n lower upper size ω ⟨u, hu⟩ hb
    unfold uniformInitSample
    rw [hu]
    exact uniform_none hu hb size ω
  refine ⟨?_, ?_, ?_, ?_, ?_⟩
  · intro fac cfg e b pm h hd hb
    obtain ⟨hm, hu, _⟩ := EMNA_ok h
    apply minimize_init_error
    rw [(mkEda_ok hm).initNone hd]
    exact gen hu hb
  · intro S L _ lib name cfg e b pm h hd hb
    obtain ⟨hm, hu, _⟩ := EGNA_ok h
    apply minimize_init_error
    rw [(mkEda_ok hm).initNone hd]
    exact gen hu hb
  · intro S L _ kind lib name l cfg e b pm h hd hb
    obtain ⟨hm, hu, _⟩ := archEda_ok h
    apply minimize_init_error
    rw [(mkEda_ok hm).initNone hd]
    exact gen hu hb
  · intro isPD h2 fac cfg e b pm h hd hb
    obtain ⟨hm, hu, _⟩ := UnivariateKEDA_ok h
    apply minimize_init_error
    rw [(mkEda_ok hm).initNone hd]
    exact gen hu hb
  · intro cfg e b pm h hd hvec hb
    have hi : e.initGen = contInitSample fl cfg ∧ ∃ c, contInit cfg = .ok c := by
      rcases h with h | h
      · obtain ⟨hm, hc, _⟩ := mkCont_ok h
        exact ⟨(mkEda_ok hm).initNone hd, hc⟩
      · obtain ⟨hm, hc, _⟩ := mkCont_ok h
        exact ⟨(mkEda_ok hm).initNone hd, hc⟩
    obtain ⟨hi, c, hc⟩ := hi
    apply minimize_init_error
    rw [hi]
    unfold contInitSample
    rw [hc]
    unfold contInit at hc
    rw [hvec] at hc
    simp only at hc
    split at hc
    · cases hc
    · rename_i u hu
      obtain rfl := Except.ok.inj hc
      exact uniform_none hu hb _ _

/-- **C61** without bounds these objects are nevertheless constructed, under the same conditions as with
any other bounds: `dead_iter <= max_iter` and matching `init_data`. -/
theorem C61_constructed :
    (∀ {fac : List (List K) → List (List K)} {cfg : EMNACfg K}, cfg.lower = .none → cfg.upper = .none →
      ((∃ x, EMNA fl sq fac cfg = .ok x) ↔ cfg.base.deadIter ≤ cfg.base.maxIter ∧
        ∀ d, cfg.base.initData = some d → d.cols = cfg.base.nVars)) ∧
    (∀ {S L : Type} [DecidableEq L] {lib : NetLib S L K (Draws K)} {name : ℕ → L}
      {cfg : NetCfg K L}, cfg.lower = .none → cfg.upper = .none →
      ((∃ x, EGNA fl lib name cfg = .ok x) ↔ cfg.base.deadIter ≤ cfg.base.maxIter ∧
        ∀ d, cfg.base.initData = some d → d.cols = cfg.base.nVars)) ∧
    (∀ {S L : Type} [DecidableEq L] {kind : BnType} {lib : NetLib S L K (Draws K)} {name : ℕ → L}
      {l : Num K} {cfg : NetCfg K L}, cfg.lower = .none → cfg.upper = .none →
      ((∃ x, archEda kind fl lib name l cfg = .ok x) ↔ cfg.base.deadIter ≤ cfg.base.maxIter ∧
        ∀ d, cfg.base.initData = some d → d.cols = cfg.base.nVars)) ∧
    (∀ {cfg : UMDAcCfg K}, cfg.lower = .none → cfg.upper = .none → cfg.vector = none →
      (((∃ x, UMDAc fl sq cfg = .ok x) ↔ cfg.base.deadIter ≤ cfg.base.maxIter ∧
        ∀ d, cfg.base.initData = some d → d.cols = cfg.base.nVars) ∧
      ((∃ x, PBIL fl sq cfg = .ok x) ↔ cfg.base.deadIter ≤ cfg.base.maxIter ∧
        ∀ d, cfg.base.initData = some d → d.cols = cfg.base.nVars))) := by
  have hnew : ∀ n : ℕ, UniformInit.new n (Bound.none : Bound K) .none =
      .ok { n := n, lower := .none, upper := .none } := by
    intro n
    simp [UniformInit.new, Bound.check]
  refine ⟨?_, ?_, ?_, ?_⟩
  · intro fac cfg hl hu
    constructor
    · rintro ⟨⟨e, b⟩, h⟩
      exact mkEda_isOk.1 ⟨e, (EMNA_ok h).1⟩
    · intro h
      obtain ⟨e, he⟩ := mkEda_isOk.2 h
      exact ⟨_, by unfold EMNA; rw [he, hl, hu, hnew]⟩
  · intro S L _ lib name cfg hl hu
    constructor
    · rintro ⟨⟨e, b⟩, h⟩
      exact mkEda_isOk.1 ⟨e, (EGNA_ok h).1⟩
    · intro h
      obtain ⟨e, he⟩ := mkEda_isOk.2 h
      exact ⟨_, by unfold EGNA; rw [he, hl, hu, hnew]⟩
  · intro S L _ kind lib name l cfg hl hu
    constructor
    · rintro ⟨⟨e, b⟩, h⟩
      exact mkEda_isOk (cfg := { cfg.base with eliteFactor := cfg.base.alpha }) |>.1 ⟨e, (archEda_ok h).1⟩
    · intro h
      obtain ⟨e, he⟩ := mkEda_isOk (cfg := { cfg.base with eliteFactor := cfg.base.alpha }) |>.2 h
      exact ⟨_, by unfold archEda; rw [he, hl, hu, hnew]⟩
  · intro cfg hl hu hv
    have hc : contInit cfg = .ok (.uniform { n := cfg.base.nVars, lower := .none, upper := .none }) := by
      unfold contInit
      rw [hv, hl, hu, hnew]
    constructor
    · constructor
      · rintro ⟨⟨e, b⟩, h⟩
        exact mkEda_isOk.1 ⟨e, (mkCont_ok h).1⟩
      · intro h
        obtain ⟨e, he⟩ := mkEda_isOk.2 h
        exact ⟨_, by unfold UMDAc mkCont; rw [he, hc]⟩
    · constructor
      · rintro ⟨⟨e, b⟩, h⟩
        exact mkEda_isOk (cfg := { cfg.base with alpha := 1 }) |>.1 ⟨e, (mkCont_ok h).1⟩
      · intro h
        obtain ⟨e, he⟩ := mkEda_isOk (cfg := { cfg.base with alpha := 1 }) |>.2 h
        exact ⟨_, by unfold PBIL mkCont; rw [he, hc]⟩

/-- Construction with `init_data` does not depend on the initializer. -/
theorem mkEda_initData {σ : Type} {cfg : BaseCfg K (List K)} {d : Gen (List K)}
    (hd : cfg.initData = some d) (i1 i2 : Draws K → Except PyErr (Gen (List K)))
    {learn : σ → Gen (List K) → Gen (List K) → Draws K → Except PyErr σ}
    {sample : σ → Draws K → Except PyErr (Gen (List K))} :
    mkEda fl cfg i1 learn sample = mkEda fl cfg i2 learn sample := by
  unfold mkEda
  exact C14_initializer_unused hd i2

/-- **C61** with `init_data` the bounds are not used: objects that differ only in their bounds (or, for
UMDAc and PBIL, in the `vector`) are the same, so that every run gives the same result. -/
theorem C61_init_data {d : Gen (List K)} :
    (∀ {fac : List (List K) → List (List K)} {cfg : EMNACfg K} {lower upper : Bound K} {x y},
      cfg.base.initData = some d → EMNA fl sq fac cfg = .ok x →
      EMNA fl sq fac { cfg with lower := lower, upper := upper } = .ok y → x = y) ∧
    (∀ {S L : Type} [DecidableEq L] {lib : NetLib S L K (Draws K)} {name : ℕ → L}
      {cfg : NetCfg K L} {lower upper : Bound K} {x y},
      cfg.base.initData = some d → EGNA fl lib name cfg = .ok x →
      EGNA fl lib name { cfg with lower := lower, upper := upper } = .ok y → x = y) ∧
    (∀ {S L : Type} [DecidableEq L] {kind : BnType} {lib : NetLib S L K (Draws K)} {name : ℕ → L}
      {l : Num K} {cfg : NetCfg K L} {lower upper : Bound K} {x y},
      cfg.base.initData = some d → archEda kind fl lib name l cfg = .ok x →
      archEda kind fl lib name l { cfg with lower := lower, upper := upper } = .ok y → x = y) ∧
    (∀ {isPD : List (List K) → Bool} {h2 : ℕ → ℕ → K} {fac : List (List K) → List (List K)}
      {cfg : KedaCfg K} {lower upper : Bound K} {x y},
      cfg.base.initData = some d → UnivariateKEDA fl isPD h2 fac cfg = .ok x →
      UnivariateKEDA fl isPD h2 fac { cfg with lower := lower, upper := upper } = .ok y → x = y) ∧
    (∀ {cfg : UMDAcCfg K} {lower upper : Bound K} {vector : Option (List (List K))} {x y},
      cfg.base.initData = some d → UMDAc fl sq cfg = .ok x →
      UMDAc fl sq { cfg with lower := lower, upper := upper, vector := vector } = .ok y → x = y) ∧
    (∀ {cfg : UMDAcCfg K} {lower upper : Bound K} {vector : Option (List (List K))} {x y},
      cfg.base.initData = some d → PBIL fl sq cfg = .ok x →
      PBIL fl sq { cfg with lower := lower, upper := upper, vector := vector } = .ok y → x = y) := by
  refine ⟨?_, ?_, ?_, ?_, ?_, ?_⟩
  · rintro fac cfg lower upper ⟨e, b⟩ ⟨e', b'⟩ hd h h'
    obtain ⟨h1, _, h2⟩ := EMNA_ok h
    obtain ⟨h1', _, h2'⟩ := EMNA_ok h'
    rw [mkEda_initData hd _ (uniformInitSample fl cfg.base.nVars lower upper cfg.base.sizeGen), h1'] at h1
    rw [← Except.ok.inj h1, h2, h2']
  · rintro S L _ lib name cfg lower upper ⟨e, b⟩ ⟨e', b'⟩ hd h h'
    obtain ⟨h1, _, h2⟩ := EGNA_ok h
    obtain ⟨h1', _, h2'⟩ := EGNA_ok h'
    rw [mkEda_initData hd _ (uniformInitSample fl cfg.base.nVars lower upper cfg.base.sizeGen), h1'] at h1
    rw [← Except.ok.inj h1, h2, h2']
  · rintro S L _ kind lib name l cfg lower upper ⟨e, b⟩ ⟨e', b'⟩ hd h h'
    obtain ⟨h1, _, h2⟩ := archEda_ok h
    obtain ⟨h1', _, h2'⟩ := archEda_ok h'
    rw [mkEda_initData (by exact hd) _
      (uniformInitSample fl cfg.base.nVars lower upper cfg.base.sizeGen), h1'] at h1
    rw [← Except.ok.inj h1, h2, h2']
  · rintro isPD h2 fac cfg lower upper ⟨e, b⟩ ⟨e', b'⟩ hd h h'
    obtain ⟨h1, _, h2⟩ := UnivariateKEDA_ok h
    obtain ⟨h1', _, h2'⟩ := UnivariateKEDA_ok h'
    rw [mkEda_initData hd _ (uniformInitSample fl cfg.base.nVars lower upper cfg.base.sizeGen), h1'] at h1
    rw [← Except.ok.inj h1, h2, h2']
  · rintro cfg lower upper vector ⟨e, b⟩ ⟨e', b'⟩ hd h h'
    obtain ⟨h1, _, h2⟩ := mkCont_ok h
    obtain ⟨h1', _, h2'⟩ := mkCont_ok h'
    rw [mkEda_initData hd _
      (contInitSample fl { cfg with lower := lower, upper := upper, vector := vector }), h1'] at h1
    rw [← Except.ok.inj h1, h2, h2']
  · rintro cfg lower upper vector ⟨e, b⟩ ⟨e', b'⟩ hd h h'
    obtain ⟨h1, _, h2⟩ := mkCont_ok h
    obtain ⟨h1', _, h2'⟩ := mkCont_ok h'
    rw [mkEda_initData (by exact hd) _
      (contInitSample fl { cfg with lower := lower, upper := upper, vector := vector }), h1'] at h1
    rw [← Except.ok.inj h1, h2, h2']

/-- `UMDAc(size_gen=4, max_iter=3, dead_iter=3, n_variables=2)`, the defaults otherwise. -/
def Ex.noBounds : UMDAcCfg ℚ :=
  { base := { sizeGen := 4, maxIter := 3, deadIter := 3, nVars := 2, alpha := 1/2, eliteFactor := 2/5
              parallel := false, initData := none, wNoise := some (1/2) }
    lower := .none, upper := .none, vector := none, lowerFactor := 1/2 }

example : ∃ e b, UMDAc id id Ex.noBounds = .ok (e, b) ∧
    minimize Ex.env e Ex.cost 0 b Ex.rand = .error .typeError := by
  obtain ⟨⟨e, b⟩, h⟩ := (C61_constructed (fl := id) (sq := id) |>.2.2.2 (cfg := Ex.noBounds) rfl rfl rfl).1.2
    ⟨by decide, by intro d hd; cases hd⟩
  exact ⟨e, b, h, C61_no_bounds.2.2.2.2 (.inl h) rfl rfl (.inl rfl)⟩

end Verif
