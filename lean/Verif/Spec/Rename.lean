/-
Specification vocabulary: the same problem with other names for the categories.
-/
import Verif.Model.Categorical
import Verif.Model.Core

namespace Verif.Spec

variable {α β K C σ : Type}

/-- A category with its string renamed (integers keep their value). -/
def renameCat (g : α → β) : Cat α → Cat β
  | .str a => .str (g a)
  | .int z => .int z

/-- An individual with other names: `ren j` renames the categories of variable `j`. -/
def renameRow (ren : ℕ → α → β) (r : List (Cat α)) : List (Cat β) := r.mapIdx (fun j v => renameCat (ren j) v)

/-- A generation with other names. -/
def renameGen (ren : ℕ → α → β) (g : Gen (List (Cat α))) : Gen (List (Cat β)) :=
  { dt := g.dt, cols := g.cols, rows := g.rows.map (renameRow ren) }

/-- The same arguments with other names: `possible_values` and `init_data` are renamed, everything else is
unchanged. -/
def renameCfg (ren : ℕ → α → β) (cfg : CatCfg α K) : CatCfg β K :=
  { base :=
      { sizeGen := cfg.base.sizeGen, maxIter := cfg.base.maxIter, deadIter := cfg.base.deadIter
        nVars := cfg.base.nVars, alpha := cfg.base.alpha, eliteFactor := cfg.base.eliteFactor
        parallel := cfg.base.parallel, initData := cfg.base.initData.map (renameGen ren)
        wNoise := cfg.base.wNoise }
    space :=
      { objArr := cfg.space.objArr
        vals := cfg.space.vals.mapIdx (fun j vs => vs.map (renameCat (ren j)))
        freq := cfg.space.freq } }

/-- The best individual with other names. -/
def renameBest (ren : ℕ → α → β) : BestInd (List (Cat α)) → BestInd (List (Cat β))
  | .index i => .index i
  | .row r => .row (renameRow ren r)

/-- What a run produces: its result, and the evaluated generations with their costs. -/
abbrev RunReport (R C : Type) := EdaResult R C × List (List (R × C))

/-- The report of a run of `minimize`. -/
def runReport {R : Type} (run : Except PyErr (EdaResult R C × St R C σ)) : Except PyErr (RunReport R C) :=
  run.map (fun x => (x.1, x.2.log))

/-- A report with other names. -/
def renameReport (ren : ℕ → α → β) (x : RunReport (List (Cat α)) C) : RunReport (List (Cat β)) C :=
  ({ bestInd := renameBest ren x.1.bestInd, bestCost := x.1.bestCost, nFev := x.1.nFev, history := x.1.history },
    x.2.map (List.map (fun rc => (renameRow ren rc.1, rc.2))))

end Verif.Spec
