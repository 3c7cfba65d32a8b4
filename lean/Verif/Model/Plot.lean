import Verif.Model.Tools
/-!
# `plot_bn`

Model of `EDAspy/optimization/tools.py:53-119`: what is drawn and where.  The look of the drawing
(sizes, colours, transparency, curvature; `curved_arcs` only selects the look of the arrows,
tools.py:102-107), matplotlib and the file system are not modelled.  A figure is the list of the
drawn nodes, arrows and labels with their coordinates, its title, and the file it is saved to.
-/

namespace Verif

variable {L P : Type} [DecidableEq L]

/-- `networkx.DiGraph`: nodes and edges in insertion order, without repetitions.  (`g.edges()` lists
the edges grouped by their first node; this order has no influence on what is drawn.) -/
structure DiGraph (L : Type) where
  nodes : List L
  edges : List (L × L)
  deriving DecidableEq

/-- Insertion in a Python dictionary used as a set. -/
def insertNew {α : Type} [DecidableEq α] (l : List α) (x : α) : List α :=
  if x ∈ l then l else l ++ [x]

/-- tools.py:93 `g.add_nodes_from(var_names)`. -/
def DiGraph.addNodes (g : DiGraph L) (vs : List L) : DiGraph L :=
  { g with nodes := vs.foldl insertNew g.nodes }

/-- tools.py:94 `g.add_edges_from(arcs)`: the ends of an arc are added as nodes if necessary. -/
def DiGraph.addEdges (g : DiGraph L) (arcs : List (L × L)) : DiGraph L :=
  arcs.foldl (fun g a => { nodes := insertNew (insertNew g.nodes a.1) a.2
                           edges := insertNew g.edges a }) g

/-- What is drawn. -/
structure Figure (L P : Type) where
  nodes : List (L × P)
  arrows : List (P × P)
  labels : List (L × P)
  title : Option String
  savedTo : Option String
  deriving DecidableEq

/-- The position of a node; `networkx.NetworkXError` (an `Exception`) when it has none. -/
def posOf (pos : List (L × P)) (v : L) : Except PyErr P :=
  match dictGet pos v with
  | some p => .ok p
  | none => .error .exception

/-- `networkx.draw_networkx_nodes` (tools.py:99) and `draw_networkx_labels` (tools.py:109). -/
def drawNodes (pos : List (L × P)) (vs : List L) : Except PyErr (List (L × P)) :=
  vs.mapM (fun v => (posOf pos v).map (fun p => (v, p)))

/-- `networkx.draw_networkx_edges` (tools.py:103, 107). -/
def drawEdges (pos : List (L × P)) (es : List (L × L)) : Except PyErr (List (P × P)) :=
  es.mapM (fun a => do
    let p ← posOf pos a.1
    let q ← posOf pos a.2
    pure (p, q))

/-- `if title:` (tools.py:112) and `if output_file:` (tools.py:116): `None` and `''` are false. -/
def truthyStr : Option String → Option String
  | some s => if s = "" then none else some s
  | none => none

/-- tools.py:53-119 `plot_bn`.  `grid` turns the integer coordinates of `_set_positions` into the
coordinates of the figure.  tools.py:96 `if not pos` is true for `None` and for `{}`. -/
def plotBn (grid : ℤ × ℤ → P) (arcs : List (L × L)) (vars : List L) (pos : Option (List (L × P)))
    (title outputFile : Option String) : Except PyErr (Figure L P) := do
  let g := (({ nodes := [], edges := [] } : DiGraph L).addNodes vars).addEdges arcs
  let pos ← match pos with
    | some (p :: ps) => .ok (p :: ps)
    | _ => (setPositions vars).map (List.map (fun x => (x.1, grid x.2)))
  let nodes ← drawNodes pos g.nodes
  let arrows ← drawEdges pos g.edges
  let labels ← drawNodes pos g.nodes
  pure { nodes := nodes, arrows := arrows, labels := labels, title := truthyStr title
         savedTo := truthyStr outputFile }

end Verif
