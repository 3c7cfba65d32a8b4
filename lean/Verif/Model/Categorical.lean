/-
Model of `UniCategorical` (univariate_categorical.py), `CategoricalSampling`
(categorical_geninit.py) and `UMDAcat` (univariate/umda_categorical.py).
-/
import Verif.Model.Base
import Mathlib.Data.List.Dedup

namespace Verif

/-- A category: a string (represented by any ordered type `α`) or an integer. -/
inductive Cat (α : Type) where
  | str (a : α)
  | int (z : ℤ)
  deriving DecidableEq

variable {α K : Type}

/-- The category is a string. -/
def Cat.isStr : Cat α → Bool
  | .str _ => true
  | .int _ => false

/-- Python's `<=` between categories of the same type. -/
def Cat.le [LinearOrder α] : Cat α → Cat α → Bool
  | .str a, .str b => decide (a ≤ b)
  | .int a, .int b => decide (a ≤ b)
  | .str _, .int _ => false
  | .int _, .str _ => true

/-- dtype of an array of categories built from a Python list: strings, integers; a mixture would be
converted to strings (not modelled). -/
def listDType (vals : List (Cat α)) : Except PyErr DType :=
  if vals.all Cat.isStr then .ok .object
  else if vals.all (fun v => !v.isStr) then .ok .int
  else .error .notModelled

/-- Insertion of `v` in a sorted list (part of the sort of `np.unique`). -/
def insertCat [LinearOrder α] (v : Cat α) : List (Cat α) → List (Cat α)
  | [] => [v]
  | w :: ws => if v.le w then v :: w :: ws else w :: insertCat v ws

/-- `np.unique(array)`: the distinct values, sorted. -/
def npUnique [LinearOrder α] (col : List (Cat α)) : List (Cat α) :=
  col.dedup.foldr insertCat []

section
variable [Field K] [LinearOrder K]

/-- univariate_categorical.py:10-19 `obtain_probabilities`: sorting strings together with integers
is a `TypeError`. -/
def obtainProbabilities [LinearOrder α] (col : List (Cat α)) :
    Except PyErr (List (Cat α × K)) :=
  if col.all Cat.isStr || col.all (fun v => !v.isStr) then
    .ok ((npUnique col).map (fun v => (v, (col.count v : K) / (col.length : K))))
  else .error .typeError

/-- `cdf.searchsorted(u, side='right')` for the cumulative sums of `p` divided by their total. -/
def pickFrom (total acc u : K) : List K → ℕ
  | [] => 0
  | p :: ps => if u < (acc + p) / total then 0 else pickFrom total (acc + p) u ps + 1

/-- One draw of `np.random.choice`: the value at the position found in the cumulative sums. -/
def pickVal {β : Type} (vals : List β) (p : List K) (u : K) : Except PyErr β :=
  match vals[pickFrom p.sum 0 u p]? with
  | some v => .ok v
  | none => .error .indexError

/-- `np.random.choice(vals, size=size, p=p)`; `u i` is the uniform draw number `i`.  The
probabilities must be non-negative and sum to 1 up to `sqrt(eps) = 2^-26`. -/
def npChoice {β : Type} (vals : List β) (p : List K) (size : ℤ) (u : ℕ → K) :
    Except PyErr (List β) :=
  if vals.length = 0 ∧ size ≠ 0 then .error .valueError
  else if vals.length ≠ p.length then .error .valueError
  else if p.any (fun x => decide (x < 0)) then .error .valueError
  else if 1 / 2 ^ 26 < |p.sum - 1| then .error .valueError
  else if size < 0 then .error .valueError
  else (List.range size.toNat).mapM (fun i => pickVal vals p (u i))

/-- The rows of a data frame with the given columns. -/
def rowsOf {β : Type} (size : ℕ) (cols : List (List β)) : List (List β) :=
  (List.range size).map (fun i => cols.filterMap (fun c => c[i]?))

/-- `DataFrame.to_numpy()`: strings in any column make it an object array. -/
def frame {β : Type} (size : ℤ) (cols : List (DType × List β)) : Except PyErr (Gen (List β)) :=
  if cols.length = 0 then .error .notModelled
  else .ok { dt := if cols.any (fun c => c.1 = .object) then .object else .int
             cols := cols.length
             rows := rowsOf size.toNat (cols.map Prod.snd) }

/-- univariate_categorical.py:28-31: the variables (labels of any type `L`) and the table. -/
structure UniCat (L α K : Type) where
  vars : List L
  table : L → Option (List (Cat α × K))

variable {L : Type}

/-- univariate_categorical.py:28-31 `__init__`. -/
def UniCat.new (vars : List L) : UniCat L α K := { vars := vars, table := fun _ => none }

/-- The loop of univariate_categorical.py:39-42 over the remaining variables, `i` is the number of
the next one; `dataset[:, i]` is an `IndexError` beyond the last column. -/
def learnCats [LinearOrder α] [DecidableEq L] (data : Gen (List (Cat α))) :
    ℕ → List L → (L → Option (List (Cat α × K))) → Except PyErr (L → Option (List (Cat α × K)))
  | _, [], tbl => .ok tbl
  | i, l :: ls, tbl =>
    if data.cols ≤ i then .error .indexError
    else match obtainProbabilities (data.rows.filterMap (fun r => r[i]?)) with
    | .error err => .error err
    | .ok probs => learnCats data (i + 1) ls (Function.update tbl l (some probs))

/-- univariate_categorical.py:33-42 `learn`. -/
def UniCat.learn [LinearOrder α] [DecidableEq L] (c : UniCat L α K) (data : Gen (List (Cat α))) :
    Except PyErr (UniCat L α K) :=
  match learnCats data 0 c.vars c.table with
  | .error err => .error err
  | .ok tbl => .ok { c with table := tbl }

/-- univariate_categorical.py:54-57: the column of variable number `j` with label `l`; a variable
without table is a `KeyError`. -/
def UniCat.sampleCol (c : UniCat L α K) (size : ℤ) (ω : Draws K) (j : ℕ) (l : L) :
    Except PyErr (DType × List (Cat α)) :=
  match c.table l with
  | none => .error (.keyError "variable")
  | some t =>
    match listDType (t.map Prod.fst) with
    | .error err => .error err
    | .ok dt =>
      match npChoice (t.map Prod.fst) (t.map Prod.snd) size (fun i => ω i j) with
      | .error err => .error err
      | .ok col => .ok (dt, col)

/-- univariate_categorical.py:44-59 `sample`.  (Repeated labels or no variables at all are not
modelled.) -/
def UniCat.sample [DecidableEq L] (c : UniCat L α K) (size : ℤ) (ω : Draws K) :
    Except PyErr (Gen (List (Cat α))) :=
  if ¬ c.vars.Nodup then .error .notModelled else
  match (c.vars.zipIdx).mapM (fun li => c.sampleCol size ω li.2 li.1) with
  | .error err => .error err
  | .ok cols => frame size cols

/-- Arguments of `CategoricalSampling` (categorical_geninit.py:17-20).  `objArr`: the possible
values are a numpy array of objects (as in the documented example) and not lists. -/
structure CatSpace (α K : Type) where
  objArr : Bool
  vals : List (List (Cat α))
  freq : List (List K)

/-- categorical_geninit.py:26-29: the checks for variable `i`. -/
def CatSpace.checkVar (s : CatSpace α K) (i : ℕ) : Except PyErr Unit :=
  match s.vals[i]?, s.freq[i]? with
  | some v, some p =>
    if v.length ≠ p.length then .error .assertion
    else if 1 / 10 < |p.sum - 1| then .error .assertion
    else .ok ()
  | _, _ => .error .indexError

/-- categorical_geninit.py:17-34 `__init__`. -/
def CatSpace.check (s : CatSpace α K) (n : ℕ) : Except PyErr Unit :=
  match (List.range n).mapM s.checkVar with
  | .error err => .error err
  | .ok _ => .ok ()

/-- categorical_geninit.py:45-46: the column of variable `i`. -/
def CatSpace.sampleCol (s : CatSpace α K) (size : ℤ) (ω : Draws K) (i : ℕ) :
    Except PyErr (DType × List (Cat α)) :=
  match s.vals[i]?, s.freq[i]? with
  | some v, some p =>
    match (if s.objArr then .ok .object else listDType v : Except PyErr DType) with
    | .error err => .error err
    | .ok dt =>
      match npChoice v p size (fun k => ω k i) with
      | .error err => .error err
      | .ok col => .ok (dt, col)
  | _, _ => .error .indexError

/-- categorical_geninit.py:36-48 `sample`. -/
def CatSpace.sample (s : CatSpace α K) (n : ℕ) (size : ℤ) (ω : Draws K) :
    Except PyErr (Gen (List (Cat α))) :=
  match (List.range n).mapM (s.sampleCol size ω) with
  | .error err => .error err
  | .ok cols => frame size cols

/-- eda.py:188 `self.generation += ""` (the noise of eda.py:178-179 for `w_noise=-1`): strings are
unchanged, everything else is an error. -/
def addEmptyStr (g : Gen (List (Cat α))) : Except PyErr (Gen (List (Cat α))) :=
  match g.dt with
  | .object => if g.rows.all (fun r => r.all Cat.isStr) then .ok g else .error .typeError
  | _ => .error .ufuncType

/-- Arguments of `UMDAcat.__init__` (umda_categorical.py:62-73), `EBNA.__init__` (ebna.py:68-79) and
`BOA.__init__` (boa.py:67-78). -/
structure CatCfg (α K : Type) where
  base : BaseCfg K (List (Cat α))
  space : CatSpace α K

/-- umda_categorical.py:89-96, ebna.py:95-102, boa.py:94-101: `EDA.__init__` with `w_noise=-1` and
the initializer; `learn` and `sample` belong to the probabilistic model. -/
def catEda [FloorRing K] {σ : Type} (fl : K → K) (cfg : CatCfg α K)
    (learn : σ → Gen (List (Cat α)) → Draws K → Except PyErr σ)
    (sample : σ → Draws K → Except PyErr (Gen (List (Cat α)))) :
    Except PyErr (Eda (List (Cat α)) σ (Draws K)) :=
  match mkEdaG fl { cfg.base with wNoise := some (-1) } (fun _ => .ok addEmptyStr)
      (fun ω => cfg.space.sample cfg.base.nVars cfg.base.sizeGen ω)
      (fun c g _ ω => learn c g ω) sample with
  | .error err => .error err
  | .ok e =>
    match cfg.space.check cfg.base.nVars with
    | .error err => .error err
    | .ok _ => .ok e

/-- umda_categorical.py:62-96.  The label `str(i)` is represented by `i`.  Returns the object and
its initial model. -/
def UMDAcat [LinearOrder α] [FloorRing K] (fl : K → K) (cfg : CatCfg α K) :
    Except PyErr (Eda (List (Cat α)) (UniCat ℕ α K) (Draws K) × UniCat ℕ α K) :=
  match catEda fl cfg (fun c g _ => UniCat.learn c g)
      (fun c ω => UniCat.sample c cfg.base.sizeGen ω) with
  | .error err => .error err
  | .ok e => .ok (e, UniCat.new (List.range cfg.base.nVars))

/-- The discrete Bayesian network of `pgmpy` (an external library, not modelled): the network fitted
to a dataset with a score (discrete_bayesian_network.py:35-58) and its simulation (:70-73).  `σ` are
the networks, `none` is the empty network of discrete_bayesian_network.py:31. -/
structure BNLib (σ α K : Type) where
  fit : String → List ℕ → Gen (List (Cat α)) → Draws K → Except PyErr σ
  simulate : Option σ → ℤ → Draws K → Except PyErr (Gen (List (Cat α)))

/-- ebna.py:68-102 (`score = "bicscore"`, the default of `BN.learn`) and boa.py:67-107
(`score = "bdeuscore"`).  Returns the object and its initial model. -/
def bnEda [FloorRing K] {σ : Type} (fl : K → K) (lib : BNLib σ α K) (score : String)
    (cfg : CatCfg α K) :
    Except PyErr (Eda (List (Cat α)) (Option σ) (Draws K) × Option σ) :=
  match catEda fl cfg
      (fun _ g ω => (lib.fit score (List.range cfg.base.nVars) g ω).map some)
      (fun c ω => lib.simulate c cfg.base.sizeGen ω) with
  | .error err => .error err
  | .ok e => .ok (e, none)

/-- ebna.py:68-102. -/
def EBNA [FloorRing K] {σ : Type} (fl : K → K) (lib : BNLib σ α K) (cfg : CatCfg α K) :
    Except PyErr (Eda (List (Cat α)) (Option σ) (Draws K) × Option σ) := bnEda fl lib "bicscore" cfg

/-- boa.py:67-107. -/
def BOA [FloorRing K] {σ : Type} (fl : K → K) (lib : BNLib σ α K) (cfg : CatCfg α K) :
    Except PyErr (Eda (List (Cat α)) (Option σ) (Draws K) × Option σ) := bnEda fl lib "bdeuscore" cfg

end

end Verif
