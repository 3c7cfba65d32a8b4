/-
The categorical model in double precision: `UniCategorical` (univariate_categorical.py), `CategoricalSampling`
(categorical_geninit.py) and `UMDAcat` with the rounding `fl` of every arithmetic operation, those of
`np.random.choice` included.  `Verif/Model/Categorical.lean` has the same functions in exact arithmetic.
-/
import Verif.Model.Categorical
import Verif.Model.Round

namespace Verif

variable {K α β L : Type} [Field K] [LinearOrder K]

/-- univariate_categorical.py:10-19 `obtain_probabilities`, the quotient of line 14 rounded. -/
def obtainProbabilitiesR [LinearOrder α] (fl : K → K) (col : List (Cat α)) : Except PyErr (List (Cat α × K)) :=
  if col.all Cat.isStr || col.all (fun v => !v.isStr) then
    .ok ((npUnique col).map (fun v => (v, fl ((col.count v : K) / (col.length : K)))))
  else .error .typeError

/-- The loop of numpy's `kahan_sum` (numpy/random, used by `choice`): the sum `s`, the correction `c` and the
remaining summands. -/
def kahanLoop (fl : K → K) : K → K → List K → K
  | s, _, [] => s
  | s, c, p :: ps =>
    let y := fl (p - c)
    let t := fl (s + y)
    kahanLoop fl t (fl (fl (t - s) - y)) ps

/-- numpy's `kahan_sum`. -/
def kahanSum (fl : K → K) : List K → K
  | [] => 0
  | p :: ps => kahanLoop fl p 0 ps

/-- `p.cumsum()`, starting with the sum `s`. -/
def cumR (fl : K → K) : K → List K → List K
  | _, [] => []
  | s, p :: ps => fl (s + p) :: cumR fl (fl (s + p)) ps

/-- `cdf = p.cumsum(); cdf /= cdf[-1]`. -/
def cdfR (fl : K → K) (p : List K) : List K :=
  (cumR fl 0 p).map (fun x => fl (x / (cumR fl 0 p).getLastD 0))

/-- One draw of `np.random.choice`: `cdf.searchsorted(u, side='right')` is the first position with `u < cdf[i]`
(the entries do not decrease, `C82_cdf`, so that every search finds the same position). -/
def pickValR (fl : K → K) (vals : List β) (p : List K) (u : K) : Except PyErr β :=
  match vals[(cdfR fl p).findIdx (fun c => decide (u < c))]? with
  | some v => .ok v
  | none => .error .indexError

/-- `np.random.choice(vals, size=size, p=p)` with its rounding errors; `u i` is the uniform draw number `i`. -/
def npChoiceR (fl : K → K) (vals : List β) (p : List K) (size : ℤ) (u : ℕ → K) : Except PyErr (List β) :=
  if vals.length = 0 ∧ size ≠ 0 then .error .valueError
  else if vals.length ≠ p.length then .error .valueError
  else if p.any (fun x => decide (x < 0)) then .error .valueError
  else if 1 / 2 ^ 26 < |fl (kahanSum fl p - 1)| then .error .valueError
  else if size < 0 then .error .valueError
  else (List.range size.toNat).mapM (fun i => pickValR fl vals p (u i))

/-- The loop of univariate_categorical.py:39-42 with rounding. -/
def learnCatsR [LinearOrder α] [DecidableEq L] (fl : K → K) (data : Gen (List (Cat α))) :
    ℕ → List L → (L → Option (List (Cat α × K))) → Except PyErr (L → Option (List (Cat α × K)))
  | _, [], tbl => .ok tbl
  | i, l :: ls, tbl =>
    if data.cols ≤ i then .error .indexError
    else match obtainProbabilitiesR fl (data.rows.filterMap (fun r => r[i]?)) with
    | .error err => .error err
    | .ok probs => learnCatsR fl data (i + 1) ls (Function.update tbl l (some probs))

/-- univariate_categorical.py:33-42 `learn` with rounding. -/
def UniCat.learnR [LinearOrder α] [DecidableEq L] (fl : K → K) (c : UniCat L α K) (data : Gen (List (Cat α))) :
    Except PyErr (UniCat L α K) :=
  match learnCatsR fl data 0 c.vars c.table with
  | .error err => .error err
  | .ok tbl => .ok { c with table := tbl }

/-- univariate_categorical.py:54-57 with rounding. -/
def UniCat.sampleColR (fl : K → K) (c : UniCat L α K) (size : ℤ) (ω : Draws K) (j : ℕ) (l : L) :
    Except PyErr (DType × List (Cat α)) :=
  match c.table l with
  | none => .error (.keyError "variable")
  | some t =>
    match listDType (t.map Prod.fst) with
    | .error err => .error err
    | .ok dt =>
      match npChoiceR fl (t.map Prod.fst) (t.map Prod.snd) size (fun i => ω i j) with
      | .error err => .error err
      | .ok col => .ok (dt, col)

/-- univariate_categorical.py:44-59 `sample` with rounding. -/
def UniCat.sampleR [DecidableEq L] (fl : K → K) (c : UniCat L α K) (size : ℤ) (ω : Draws K) :
    Except PyErr (Gen (List (Cat α))) :=
  if ¬ c.vars.Nodup then .error .notModelled else
  match (c.vars.zipIdx).mapM (fun li => c.sampleColR fl size ω li.2 li.1) with
  | .error err => .error err
  | .ok cols => frame size cols

/-- categorical_geninit.py:26-29 with rounding; `order` is the order of the additions of `np.sum`, and
`fl (1 / 10)` is the literal `1e-1`. -/
def CatSpace.checkVarR (fl : K → K) (order : ℕ → SumTree) (s : CatSpace α K) (i : ℕ) : Except PyErr Unit :=
  match s.vals[i]?, s.freq[i]? with
  | some v, some p =>
    if v.length ≠ p.length then .error .assertion
    else if fl (1 / 10) < |fl ((order p.length).eval fl (fun k => p.getD k 0) - 1)| then .error .assertion
    else .ok ()
  | _, _ => .error .indexError

/-- categorical_geninit.py:17-34 `__init__` with rounding. -/
def CatSpace.checkR (fl : K → K) (order : ℕ → SumTree) (s : CatSpace α K) (n : ℕ) : Except PyErr Unit :=
  match (List.range n).mapM (s.checkVarR fl order) with
  | .error err => .error err
  | .ok _ => .ok ()

/-- categorical_geninit.py:45-46 with rounding. -/
def CatSpace.sampleColR (fl : K → K) (s : CatSpace α K) (size : ℤ) (ω : Draws K) (i : ℕ) :
    Except PyErr (DType × List (Cat α)) :=
  match s.vals[i]?, s.freq[i]? with
  | some v, some p =>
    match (if s.objArr then .ok .object else listDType v : Except PyErr DType) with
    | .error err => .error err
    | .ok dt =>
      match npChoiceR fl v p size (fun k => ω k i) with
      | .error err => .error err
      | .ok col => .ok (dt, col)
  | _, _ => .error .indexError

/-- categorical_geninit.py:36-48 `sample` with rounding. -/
def CatSpace.sampleR (fl : K → K) (s : CatSpace α K) (n : ℕ) (size : ℤ) (ω : Draws K) :
    Except PyErr (Gen (List (Cat α))) :=
  match (List.range n).mapM (s.sampleColR fl size ω) with
  | .error err => .error err
  | .ok cols => frame size cols

/-- umda_categorical.py:62-96 with rounding. -/
def UMDAcatR [LinearOrder α] [FloorRing K] (fl : K → K) (order : ℕ → SumTree) (cfg : CatCfg α K) :
    Except PyErr (Eda (List (Cat α)) (UniCat ℕ α K) (Draws K) × UniCat ℕ α K) :=
  match mkEdaG fl { cfg.base with wNoise := some (-1) } (fun _ => .ok addEmptyStr)
      (fun ω => cfg.space.sampleR fl cfg.base.nVars cfg.base.sizeGen ω)
      (fun c g _ _ => UniCat.learnR fl c g) (fun c ω => UniCat.sampleR fl c cfg.base.sizeGen ω) with
  | .error err => .error err
  | .ok e =>
    match cfg.space.checkR fl order cfg.base.nVars with
    | .error err => .error err
    | .ok _ => .ok (e, UniCat.new (List.range cfg.base.nVars))

end Verif
