/-
Model of the continuous Bayesian networks: `GBN` (gaussian_bayesian_network.py), `SPBN`
(semiparametric_bayesian_network.py), `KDEBN` (kde_bayesian_network.py).  The library pybnesian
(structure search, parameter fit, simulation) is a parameter; the code of EDAspy around it and the
inference of `GBN` are modelled.  Arithmetic is exact (any ordered field).
-/
import Verif.Model.MultiGauss

namespace Verif

/-- The network classes of pybnesian that are used. -/
inductive BnType where
  | gaussian | semiparametric | kde
  deriving DecidableEq, Repr

/-- A `pandas.DataFrame`: column labels and rows. -/
structure Frame (L K : Type) where
  cols : List L
  rows : List (List K)

/-- `pd.DataFrame(dataset, columns=variables)`: the number of labels must match. -/
def toFrame {L K : Type} (vars : List L) (g : Gen (List K)) : Except PyErr (Frame L K) :=
  if g.cols = vars.length then .ok { cols := vars, rows := g.rows } else .error .valueError

/-- `dataset[labels].to_numpy()`: a missing label is a `KeyError`. -/
def Frame.select {L K : Type} [DecidableEq L] [Zero K] (d : Frame L K) (labels : List L) :
    Except PyErr (Gen (List K)) :=
  match labels.mapM (fun l => d.cols.idxOf? l) with
  | none => .error (.keyError "column")
  | some idx => .ok { dt := .float, cols := labels.length,
                      rows := d.rows.map (fun r => idx.map (fun k => r.getD k 0)) }

/-- The conditional linear Gaussian `node | evidence`: `beta[0] + Σ beta[j] · evidence[j-1]`, with a
variance. -/
structure CPD (L K : Type) where
  evidence : List L
  beta : List K
  variance : K

/-- Keyword arguments of `pybnesian.hc` that are passed; the lists default to `[]`, `num_folds` to
10. -/
structure HcArgs (S L : Type) where
  bnType : Option BnType := none
  start : Option S := none
  operators : Option (List String) := none
  whitelist : List (L × L) := []
  blacklist : List (L × L) := []
  numFolds : ℤ := 10

/-- pybnesian, not modelled: networks `S`, their construction, hill climbing, fit, simulation and
what can be read from a network. -/
structure NetLib (S L K Ω : Type) where
  new : BnType → List L → S
  hc : Frame L K → HcArgs S L → Ω → Except PyErr S
  fit : S → Frame L K → Except PyErr S
  sample : S → ℤ → Ω → Except PyErr (Frame L K)
  arcs : S → List (L × L)
  topSort : S → List L
  cpd : S → L → CPD L K

section nets

variable {S L K Ω : Type} [DecidableEq L] [Field K] [LinearOrder K]

/-- Attributes of a `GBN`, `SPBN` or `KDEBN`.  `topOrder` and `fitted` only exist for `GBN`. -/
structure BNet (S L K : Type) where
  kind : BnType
  vars : List L
  pm : S
  white : Option (List (L × L))
  black : Option (List (L × L))
  topOrder : Option (List L)
  fitted : Bool

/-- gaussian_bayesian_network.py:28-55, semiparametric_bayesian_network.py:22-37,
kde_bayesian_network.py:22-38 (without `evidences`, see `GbnEv`). -/
def BNet.new (lib : NetLib S L K Ω) (kind : BnType) (vars : List L)
    (white black : Option (List (L × L))) : BNet S L K :=
  { kind := kind, vars := vars, pm := lib.new kind vars, white := white, black := black
    topOrder := none, fitted := false }

/-- Python truth value of a list or `None`. -/
def truthy {α : Type} : Option (List α) → Bool
  | none => false
  | some [] => false
  | some (_ :: _) => true

/-- The keyword arguments that do not concern the lists: gaussian_bayesian_network.py:67,
semiparametric_bayesian_network.py:51, kde_bayesian_network.py:52. -/
def hcBase (kind : BnType) (empty : S) (numFolds : ℤ) : HcArgs S L :=
  match kind with
  | .gaussian => { bnType := some .gaussian }
  | .semiparametric => { start := some empty, operators := some ["arcs", "node_type"],
                         numFolds := numFolds }
  | .kde => { start := some empty, operators := some ["arcs"], numFolds := numFolds }

/-- The four calls of `hc`: gaussian_bayesian_network.py:66-74,
semiparametric_bayesian_network.py:50-60, kde_bayesian_network.py:51-61. -/
def hcArgs (kind : BnType) (empty : S) (numFolds : ℤ) (white black : Option (List (L × L))) :
    HcArgs S L :=
  if truthy white && truthy black then
    { (hcBase kind empty numFolds : HcArgs S L) with whitelist := white.getD [], blacklist := black.getD [] }
  else if truthy white then { (hcBase kind empty numFolds : HcArgs S L) with whitelist := white.getD [] }
  else if truthy black then { (hcBase kind empty numFolds : HcArgs S L) with blacklist := black.getD [] }
  else hcBase kind empty numFolds

/-- gaussian_bayesian_network.py:57-79, semiparametric_bayesian_network.py:39-62,
kde_bayesian_network.py:40-63 `learn`. -/
def BNet.learn (lib : NetLib S L K Ω) (b : BNet S L K) (g : Gen (List K)) (numFolds : ℤ) (ω : Ω) :
    Except PyErr (BNet S L K) :=
  match toFrame b.vars g with
  | .error err => .error err
  | .ok data =>
    match lib.hc data (hcArgs b.kind (lib.new b.kind b.vars) numFolds b.white b.black) ω with
    | .error err => .error err
    | .ok pm =>
      match lib.fit pm data with
      | .error err => .error err
      | .ok pm =>
        match b.kind with
        | .gaussian => .ok { b with pm := pm, topOrder := some (lib.topSort pm), fitted := true }
        | _ => .ok { b with pm := pm }

/-- `print_structure` (gaussian_bayesian_network.py:81-90 and the other two). -/
def BNet.printStructure (lib : NetLib S L K Ω) (b : BNet S L K) : List (L × L) := lib.arcs b.pm

/-- gaussian_bayesian_network.py:109-112 `_sample_normal`, semiparametric_bayesian_network.py:75-87
and kde_bayesian_network.py:65-77 `sample`. -/
def BNet.sample (lib : NetLib S L K Ω) (b : BNet S L K) (size : ℤ) (ω : Ω) :
    Except PyErr (Gen (List K)) :=
  match lib.sample b.pm size ω with
  | .error err => .error err
  | .ok d => d.select b.vars

end nets

section inference

variable {L K : Type} [DecidableEq L] [Field K] [LinearOrder K]

/-- What `get_mu` and `get_sigma` read from the network: `graph().topological_sort()` and the
`cpd`s. -/
structure GNet (L K : Type) where
  top : List L
  cpd : L → CPD L K

/-- Positions of names: `[top_order.index(i) for i in names]` (`ValueError` for unknown names). -/
def positions (top names : List L) : Except PyErr (List ℕ) :=
  names.mapM (fun l => match top.idxOf? l with
    | none => .error .valueError
    | some k => .ok k)

/-- The pairs `(coefs[j], top_order.index(parents[j-1]))` for `j` from 1:
gaussian_bayesian_network.py:142-144, :170-172, :184-185. -/
def GNet.terms (net : GNet L K) (l : L) : Except PyErr (List (K × ℕ)) :=
  (List.range ((net.cpd l).beta.length - 1)).mapM (fun j =>
    match (net.cpd l).evidence[j]? with
    | none => .error .indexError
    | some p =>
      match net.top.idxOf? p with
      | none => .error .valueError
      | some k => .ok ((net.cpd l).beta.getD (j + 1) 0, k))

/-- Assignment `v[i] = x`. -/
def upd1 (v : ℕ → K) (i : ℕ) (x : K) : ℕ → K := fun a => if a = i then x else v a

/-- Assignment `m[i, j] = x`. -/
def upd2 (m : ℕ → ℕ → K) (i j : ℕ) (x : K) : ℕ → ℕ → K :=
  fun a b => if a = i ∧ b = j then x else m a b

/-- gaussian_bayesian_network.py:136-144: the body of the loop over the nodes in `get_mu`. -/
def GNet.muStep (net : GNet L K) (mu : ℕ → K) (i : ℕ) : Except PyErr (ℕ → K) :=
  match net.top[i]? with
  | none => .error .indexError
  | some l =>
    match (net.cpd l).beta[0]?, net.terms l with
    | none, _ => .error .indexError
    | _, .error err => .error err
    | some b0, .ok ts =>
      .ok (ts.foldl (fun mu t => upd1 mu i (mu i + t.1 * mu t.2)) (upd1 mu i b0))

/-- gaussian_bayesian_network.py:133-144: the whole loop, from `np.zeros`. -/
def GNet.muVec (net : GNet L K) : Except PyErr (ℕ → K) :=
  (List.range net.top.length).foldlM net.muStep (fun _ => 0)

/-- gaussian_bayesian_network.py:124-151 `get_mu`; `none` is `None`. -/
def GNet.getMu (net : GNet L K) (names : Option (List L)) : Except PyErr (List K) :=
  match net.muVec with
  | .error err => .error err
  | .ok mu =>
    if truthy names then
      match positions net.top (names.getD []) with
      | .error err => .error err
      | .ok idx => .ok (idx.map mu)
    else .ok ((List.range net.top.length).map mu)

/-- gaussian_bayesian_network.py:167-177: the diagonal entry of node `i`. -/
def GNet.diagStep (net : GNet L K) (s : ℕ → ℕ → K) (i : ℕ) : Except PyErr (ℕ → ℕ → K) :=
  match net.top[i]? with
  | none => .error .indexError
  | some l =>
    match net.terms l with
    | .error err => .error err
    | .ok ts =>
      .ok (ts.foldl (fun s t => upd2 s i i (s i i + s t.2 t.2 * t.1 ^ 2))
        (upd2 s i i (net.cpd l).variance))

/-- gaussian_bayesian_network.py:182-190: entry `(i, j)` and its mirror image. -/
def GNet.covStep (net : GNet L K) (i : ℕ) (s : ℕ → ℕ → K) (j : ℕ) : Except PyErr (ℕ → ℕ → K) :=
  match net.top[j]? with
  | none => .error .indexError
  | some l =>
    match net.terms l with
    | .error err => .error err
    | .ok ts =>
      let s' := ts.foldl (fun s t => upd2 s i j (s i j + t.1 * s i t.2)) s
      .ok (upd2 s' j i (s' i j))

/-- gaussian_bayesian_network.py:180-190: the covariances of node `i` with the later nodes. -/
def GNet.covRow (net : GNet L K) (s : ℕ → ℕ → K) (i : ℕ) : Except PyErr (ℕ → ℕ → K) :=
  (List.range' (i + 1) (net.top.length - (i + 1))).foldlM (net.covStep i) s

/-- gaussian_bayesian_network.py:10-11 `_check_symmetric`. -/
def checkSymmetric (n : ℕ) (s : ℕ → ℕ → K) : Bool :=
  (List.range n).all (fun i => (List.range n).all (fun j => |s i j - s j i| < 1 / 10 ^ 8))

/-- gaussian_bayesian_network.py:163-191: the whole matrix with the final assertion. -/
def GNet.sigmaMat (net : GNet L K) : Except PyErr (ℕ → ℕ → K) :=
  match (List.range net.top.length).foldlM net.diagStep (fun _ _ => 0) with
  | .error err => .error err
  | .ok d =>
    match (List.range net.top.length).foldlM net.covRow d with
    | .error err => .error err
    | .ok s => if checkSymmetric net.top.length s then .ok s else .error .assertion

/-- `sigmas[np.ix_(idx, idx)]`. -/
def subMat (s : ℕ → ℕ → K) (idx : List ℕ) : List (List K) :=
  idx.map (fun i => idx.map (fun j => s i j))

/-- gaussian_bayesian_network.py:153-197 `get_sigma`. -/
def GNet.getSigma (net : GNet L K) (names : Option (List L)) : Except PyErr (List (List K)) :=
  match net.sigmaMat with
  | .error err => .error err
  | .ok s =>
    if truthy names then
      match positions net.top (names.getD []) with
      | .error err => .error err
      | .ok idx => .ok (subMat s idx)
    else .ok (subMat s (List.range net.top.length))

/-- `np.dot(m, v)` for a matrix with rows of length `v.length`. -/
def matVec (m : List (List K)) (v : List K) : List K :=
  m.map (fun r => (List.zipWith (· * ·) r v).sum)

/-- `np.array(evidence) - mu_2`; a single evidence value is broadcast, any other length leads to a
`ValueError` here or in the next product. -/
def evidenceDiff (ev mu2 : List K) : Except PyErr (List K) :=
  if ev.length = mu2.length then .ok (List.zipWith (· - ·) ev mu2)
  else match ev with
    | [e] => .ok (mu2.map (fun m => e - m))
    | _ => .error .valueError

/-- gaussian_bayesian_network.py:199-228 `inference`.  `setDiff a b` is the order in which Python
iterates over `set(a) - set(b)`; `pinv` is `np.linalg.pinv`; `topOrder = none` (a network that was
never learned) makes `set(None)` a `TypeError`. -/
def GNet.inference (net : GNet L K) (setDiff : List L → List L → List L)
    (pinv : List (List K) → List (List K)) (topOrder : Option (List L)) (evidence : List K)
    (names : List L) : Except PyErr (List K × List (List K)) :=
  match topOrder with
  | none => .error .typeError
  | some top =>
    let vars1 := setDiff top names
    let n1 := vars1.length
    match net.getMu (some (vars1 ++ names)) with
    | .error err => .error err
    | .ok mus =>
      match net.getSigma (some (vars1 ++ names)) with
      | .error err => .error err
      | .ok sigma =>
        let mu1 := mus.take n1
        let mu2 := mus.drop n1
        let s11 := (sigma.take n1).map (List.take n1)
        let s12 := (sigma.take n1).map (List.drop n1)
        let s21 := (sigma.drop n1).map (List.take n1)
        let s22 := (sigma.drop n1).map (List.drop n1)
        let inv := pinv s22
        match evidenceDiff evidence mu2 with
        | .error err => .error err
        | .ok diff =>
          .ok (List.zipWith (· + ·) mu1 (matVec s12 (matVec inv diff)),
            (List.range n1).map (fun i => (List.range n1).map (fun j =>
              entry s11 i j - ((List.range names.length).map (fun a => entry s12 i a *
                ((List.range names.length).map (fun b => entry inv a b * entry s21 b j)).sum)).sum)))

/-- gaussian_bayesian_network.py:230-235 `maximum_a_posteriori`. -/
def GNet.map (net : GNet L K) (setDiff : List L → List L → List L)
    (pinv : List (List K) → List (List K)) (fitted : Bool) (topOrder : Option (List L))
    (evidence : List K) (names : List L) : Except PyErr (List K) :=
  if ¬ fitted then .error .assertion
  else match net.inference setDiff pinv topOrder evidence names with
    | .error err => .error err
    | .ok (mu, _) => .ok mu

/-- The part of a `GBN` that `get_mu`, `get_sigma` and `inference` read. -/
def BNet.gnet {S Ω : Type} (lib : NetLib S L K Ω) (b : BNet S L K) : GNet L K :=
  { top := lib.topSort b.pm, cpd := lib.cpd b.pm }

/-- `inference` called on the object. -/
def BNet.inference {S Ω : Type} (lib : NetLib S L K Ω) (setDiff : List L → List L → List L)
    (pinv : List (List K) → List (List K)) (b : BNet S L K) (evidence : List K) (names : List L) :
    Except PyErr (List K × List (List K)) :=
  (b.gnet lib).inference setDiff pinv b.topOrder evidence names

/-- `maximum_a_posteriori` called on the object. -/
def BNet.map {S Ω : Type} (lib : NetLib S L K Ω) (setDiff : List L → List L → List L)
    (pinv : List (List K) → List (List K)) (b : BNet S L K) (evidence : List K) (names : List L) :
    Except PyErr (List K) :=
  (b.gnet lib).map setDiff pinv b.fitted b.topOrder evidence names

/-- `np.random.multivariate_normal(mean, cov, size)` (see `MultiGauss.sample`); for no variables the
reshape inside numpy is a `ValueError`. -/
def mvNormal (fac : List (List K) → List (List K)) (mean : List K) (cov : List (List K)) (size : ℤ)
    (ω : Draws K) : Except PyErr (List (List K)) :=
  if size < 0 then .error .valueError
  else if mean.length = 0 then .error .valueError
  else if ¬ (cov.all (fun r => r.length = cov.length)) then .error .valueError
  else if mean.length ≠ cov.length then .error .valueError
  else .ok ((List.range size.toNat).map (fun i => (List.range mean.length).map (fun j =>
    mean.getD j 0 + ((List.range mean.length).map (fun k => ω i k * entry (fac cov) k j)).sum)))

/-- gaussian_bayesian_network.py:95-107 `_sample_evidence` (with `ordered=True`, as called by
`eda.py:82`).  `evidences` is the dictionary in insertion order; `vars1` was computed by the
constructor (:46) from `set(variables) - set(evidences.keys())`. -/
def GNet.sampleEvidence (net : GNet L K) (setDiff : List L → List L → List L)
    (pinv fac : List (List K) → List (List K)) (vars : List L) (evidences : List (L × K))
    (topOrder : Option (List L)) (size : ℤ) (ω : Draws K) : Except PyErr (Gen (List K)) :=
  let vars1 := setDiff vars (evidences.map Prod.fst)
  match net.inference setDiff pinv topOrder (evidences.map Prod.snd) (evidences.map Prod.fst) with
  | .error err => .error err
  | .ok (mu, cov) =>
    match mvNormal fac mu cov size ω with
    | .error err => .error err
    | .ok rows =>
      if mu.length ≠ vars1.length then .error .valueError
      else Frame.select { cols := vars1 ++ evidences.map Prod.fst
                          rows := rows.map (fun r => r ++ evidences.map Prod.snd) } vars

end inference

end Verif
