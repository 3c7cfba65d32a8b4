/-
Specification for C71: tables with labelled columns.
-/
import Verif.Model.Bn

namespace Verif.Spec

variable {L V : Type}

/-- A table: distinct labels, and one value for each label in each row. -/
structure Table (d : Frame L V) : Prop where
  labels : d.cols.Nodup
  rect : ∀ r ∈ d.rows, r.length = d.cols.length

/-- The value of the variable `l` in row `i` is `x`. -/
def ValueAt (d : Frame L V) (i : ℕ) (l : L) (x : V) : Prop :=
  ∃ (k : ℕ) (r : List V), d.cols[k]? = some l ∧ d.rows[i]? = some r ∧ r[k]? = some x

/-- The same table with the columns in another order. -/
structure SameTable (d d' : Frame L V) : Prop where
  left : Table d
  right : Table d'
  rows : d.rows.length = d'.rows.length
  labels : ∀ l, l ∈ d.cols ↔ l ∈ d'.cols
  values : ∀ i l x, ValueAt d i l x ↔ ValueAt d' i l x

/-- The arcs have no directed cycle: the variables can be ranked so that every arc goes up. -/
def Acyclic (arcs : List (L × L)) : Prop := ∃ rank : L → ℕ, ∀ a ∈ arcs, rank a.1 < rank a.2

/-- The library finds acyclic structures over the labels of the data. -/
def FindsDags {P Ω : Type} (lib : PgmLib P L V Ω) : Prop :=
  ∀ data score ω arcs, lib.search data score ω = .ok arcs →
    Acyclic arcs ∧ arcs.Nodup ∧ ∀ a ∈ arcs, a.1 ∈ data.cols ∧ a.2 ∈ data.cols

/-- Two outcomes agree: the same exception, or values related by `rel`. -/
def Agree {α β : Type} (rel : α → β → Prop) : Except PyErr α → Except PyErr β → Prop
  | .error err, .error err' => err = err'
  | .ok x, .ok y => rel x y
  | _, _ => False

/-- The same network with the nodes listed in another order. -/
structure SameNet {P : Type} (n n' : PgmNet P L) : Prop where
  nodes : n.nodes.Perm n'.nodes
  arcs : n.arcs = n'.arcs
  params : n.params = n'.params

/-- The library looks at columns by their labels only: reordering the columns of the data changes
nothing but the order of the columns of the simulated tables. -/
structure ByLabel {P Ω : Type} (lib : PgmLib P L V Ω) : Prop where
  search : ∀ d d' score ω, SameTable d d' → lib.search d score ω = lib.search d' score ω
  fit : ∀ nodes nodes' arcs d d', SameTable d d' → nodes.Perm nodes' →
    lib.fit nodes arcs d = lib.fit nodes' arcs d'
  simulate : ∀ n n' size ω, SameNet n n' →
    Agree (fun x y => x.1 = y.1 ∧ SameTable x.2 y.2) (lib.simulate n size ω) (lib.simulate n' size ω)

/-- Each value simulated for a variable occurs in its column of the data the network was fitted to. -/
def OnlySeen {P Ω : Type} (lib : PgmLib P L V Ω) : Prop :=
  ∀ nodes arcs data p size ω dt d, lib.fit nodes arcs data = .ok p →
    lib.simulate ⟨nodes, arcs, some p⟩ size ω = .ok (dt, d) → Table d ∧
      ∀ l ∈ data.cols, ∀ i x, ValueAt d i l x → ∃ i', ValueAt data i' l x

end Verif.Spec
