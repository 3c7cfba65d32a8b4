/-
Model of the discrete Bayesian network `BN` (discrete_bayesian_network.py), finer than the parameter
`BNLib` of `Verif/Model/Categorical.lean`.  The library pgmpy (search, fit, simulation) is a parameter;
its class `BayesianNetwork` is modelled as far as it is used (nodes, arcs, `add_edge`).
-/
import Verif.Model.Categorical
import Verif.Model.Net
import Mathlib.Logic.Relation

namespace Verif

/-- A `pgmpy.models.BayesianNetwork`: nodes, arcs (in the order in which they were added) and, once
fitted, the parameters. -/
structure PgmNet (P L : Type) where
  nodes : List L
  arcs : List (L × L)
  params : Option P

/-- pgmpy, not modelled: the arcs found by `HillClimbSearch(data).estimate(scoring_method=score)`, the
parameters found by `fit`, and `simulate`, which returns a frame (and the dtype of its values). -/
structure PgmLib (P L V Ω : Type) where
  search : Frame L V → String → Ω → Except PyErr (List (L × L))
  fit : List L → List (L × L) → Frame L V → Except PyErr P
  simulate : PgmNet P L → ℤ → Ω → Except PyErr (DType × Frame L V)

section

variable {P L V Ω : Type} [DecidableEq L]

/-- There is a directed path (possibly of length 0) from `u` to `v`: `networkx.has_path`. -/
def HasPath (arcs : List (L × L)) (u v : L) : Prop :=
  Relation.ReflTransGen (fun a b => (a, b) ∈ arcs) u v

/-- Append if not present. -/
def insertNode (l : List L) (x : L) : List L := if x ∈ l then l else l ++ [x]

open Classical in
/-- `BayesianNetwork.add_edge`: a loop is a `ValueError`; new nodes are added; an arc that is already
there is not repeated. -/
noncomputable def PgmNet.addEdge (net : PgmNet P L) (u v : L) : Except PyErr (PgmNet P L) :=
  if u = v then .error .valueError
  else if u ∈ net.nodes ∧ v ∈ net.nodes ∧ HasPath net.arcs v u then .error .valueError
  else .ok { net with nodes := insertNode (insertNode net.nodes u) v
                      arcs := if (u, v) ∈ net.arcs then net.arcs else net.arcs ++ [(u, v)] }

/-- discrete_bayesian_network.py:54-55: the loop over the arcs. -/
noncomputable def PgmNet.addEdges (net : PgmNet P L) : List (L × L) → Except PyErr (PgmNet P L)
  | [] => .ok net
  | a :: as =>
    match net.addEdge a.1 a.2 with
    | .error err => .error err
    | .ok net' => net'.addEdges as

/-- The attributes `variables` and `pm` of a `BN`. -/
structure DBN (P L : Type) where
  vars : List L
  pm : PgmNet P L

/-- discrete_bayesian_network.py:22-33 `__init__`. -/
def DBN.new (vars : List L) : DBN P L := { vars := vars, pm := { nodes := [], arcs := [], params := none } }

/-- discrete_bayesian_network.py:35-58 `learn`. -/
noncomputable def DBN.learn (lib : PgmLib P L V Ω) (b : DBN P L) (g : Gen (List V)) (score : String)
    (ω : Ω) : Except PyErr (DBN P L) :=
  match toFrame b.vars g with
  | .error err => .error err
  | .ok data =>
    match lib.search data score ω with
    | .error err => .error err
    | .ok found =>
      match PgmNet.addEdges ({ nodes := b.vars.foldl insertNode [], arcs := [], params := none } :
          PgmNet P L) found with
      | .error err => .error err
      | .ok net =>
        match lib.fit net.nodes net.arcs data with
        | .error err => .error err
        | .ok p => .ok { b with pm := { net with params := some p } }

/-- discrete_bayesian_network.py:60-68 `print_structure` (the order in which networkx lists the arcs is
not modelled). -/
def DBN.printStructure (b : DBN P L) : List (L × L) := b.pm.arcs

/-- `dataset[labels].to_numpy()` for values of any type: a missing label is a `KeyError`. -/
def Frame.pick (d : Frame L V) (labels : List L) : Except PyErr (List (List V)) :=
  match labels.mapM (fun l => d.cols.idxOf? l) with
  | none => .error (.keyError "column")
  | some idx => .ok (d.rows.map (fun r => idx.filterMap (fun k => r[k]?)))

/-- discrete_bayesian_network.py:70-73 `sample`. -/
def DBN.sample (lib : PgmLib P L V Ω) (b : DBN P L) (size : ℤ) (ω : Ω) :
    Except PyErr (Gen (List V)) :=
  match lib.simulate b.pm size ω with
  | .error err => .error err
  | .ok (dt, d) =>
    match d.pick b.vars with
    | .error err => .error err
    | .ok rows => .ok { dt := dt, cols := b.vars.length, rows := rows }

end

/-- The library used by `EBNA` and `BOA` (see `bnEda`), spelt out: `fit` is `learn` of a `BN` and
`simulate` its `sample`.  (`minimize` never samples a `BN` before `learn`.) -/
noncomputable def PgmLib.toBNLib {P α K : Type} (lib : PgmLib P ℕ (Cat α) (Draws K)) :
    BNLib (DBN P ℕ) α K where
  fit score vars g ω := (DBN.new vars : DBN P ℕ).learn lib g score ω
  simulate
    | none, _, _ => .error .notModelled
    | some b, size, ω => b.sample lib size ω

end Verif
