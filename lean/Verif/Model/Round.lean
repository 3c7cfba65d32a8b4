/-
The univariate Gaussian models in double precision: `UniGauss`, `AdaptUniGauss` (custom/probabilistic_models),
`UMDAc` and `PBIL` with the rounding `fl` of every arithmetic operation.
`Verif/Model/Gauss.lean` has the same functions in exact arithmetic.
-/
import Verif.Model.Gauss

namespace Verif

variable {K : Type} [Field K] [LinearOrder K]

/-- The order of the additions in a sum: a binary tree over the numbered summands; `zero` is the initial value
of an accumulator. -/
inductive SumTree where
  | zero
  | leaf (i : ℕ)
  | add (l r : SumTree)

/-- The sum in this order, every addition rounded by `fl`. -/
def SumTree.eval (fl : K → K) (x : ℕ → K) : SumTree → K
  | .zero => 0
  | .leaf i => x i
  | .add l r => fl (l.eval fl x + r.eval fl x)

/-- The numbers of the summands. -/
def SumTree.leaves : SumTree → List ℕ
  | .zero => []
  | .leaf i => [i]
  | .add l r => l.leaves ++ r.leaves

/-- The largest number of additions a summand takes part in. -/
def SumTree.depth : SumTree → ℕ
  | .zero => 0
  | .leaf _ => 0
  | .add l r => max l.depth r.depth + 1

/-- An accumulator to which the summands `a, a + step, a + 2 * step, …` (`n` of them) are added one by one. -/
def SumTree.acc (t : SumTree) (a step : ℕ) : ℕ → SumTree
  | 0 => t
  | n + 1 => (t.acc a step n).add (.leaf (a + n * step))

/-- numpy's `pairwise_sum` of the `n` summands from number `a` on: up to 7 one by one, up to 128 with eight
accumulators, more in two parts.  (`fuel` bounds the number of splittings.) -/
def npPairwise : ℕ → ℕ → ℕ → SumTree
  | 0, _, _ => .zero
  | fuel + 1, a, n =>
    if n < 8 then SumTree.zero.acc a 1 n
    else if n ≤ 128 then
      let m := n / 8
      let r := fun k => (SumTree.leaf (a + k)).acc (a + k + 8) 8 (m - 1)
      ((((r 0).add (r 1)).add ((r 2).add (r 3))).add (((r 4).add (r 5)).add ((r 6).add (r 7)))).acc
        (a + 8 * m) 1 (n - 8 * m)
    else
      let n2 := n / 2 - n / 2 % 8
      (npPairwise fuel a n2).add (npPairwise fuel (a + n2) (n - n2))

/-- The order of the additions in `np.sum` of `n` numbers. -/
def npOrder (n : ℕ) : SumTree := npPairwise (n + 1) 0 n

/-- `np.mean(dataset[:, j])`: the sum divided by the number of rows. -/
def colMeanR (fl : K → K) (order : ℕ → SumTree) (rows : List (List K)) (j : ℕ) : K :=
  fl ((order rows.length).eval fl (fun i => (rows.getD i []).getD j 0) / (rows.length : K))

/-- `np.std(dataset[:, j])` before the square root: subtract the mean, square, mean of the squares. -/
def colVarR (fl : K → K) (order : ℕ → SumTree) (rows : List (List K)) (j : ℕ) : K :=
  fl ((order rows.length).eval fl (fun i =>
    fl (fl ((rows.getD i []).getD j 0 - colMeanR fl order rows j) *
      fl ((rows.getD i []).getD j 0 - colMeanR fl order rows j))) / (rows.length : K))

/-- `np.std(dataset[:, j])`. -/
def colStdR (fl sq : K → K) (order : ℕ → SumTree) (rows : List (List K)) (j : ℕ) : K :=
  fl (sq (colVarR fl order rows j))

/-- univariate_gaussian.py:37-48 `learn` with rounding. -/
def UniGauss.learnR (fl sq : K → K) (order : ℕ → SumTree) (b : UniGauss K) (g : Gen (List K)) :
    Except PyErr (UniGauss K) :=
  if b.n = 0 then .ok b
  else if g.cols < b.n then .error .indexError
  else if g.rows = [] then .error .notModelled
  else .ok { b with
    mean := (List.range b.n).map (colMeanR fl order g.rows)
    std := (List.range b.n).map (fun j => floorStd b.lb (colStdR fl sq order g.rows j)) }

/-- adaptive_univariate_gaussian.py:44-58 `learn` of `AdaptUniGauss` with rounding. -/
def UniGauss.learnAdaptR (fl sq : K → K) (order : ℕ → SumTree) (alpha : K) (b : UniGauss K) (g : Gen (List K)) :
    Except PyErr (UniGauss K) :=
  if b.n = 0 then .ok b
  else if g.cols < b.n then .error .indexError
  else match g.rows[0]?, g.rows[1]?, g.rows.getLast? with
    | some r0, some r1, some rl => .ok { b with
        mean := (List.range b.n).map (fun j => fl (fl (fl (1 - alpha) * colMeanR fl order g.rows j) +
          fl (alpha * fl (fl (r0.getD j 0 + r1.getD j 0) - rl.getD j 0))))
        std := (List.range b.n).map (fun j => floorStd b.lb (colStdR fl sq order g.rows j)) }
    | _, _, _ => .error .indexError

/-- univariate_gaussian.py:24-35 `sample` with rounding: `loc + scale * z`. -/
def UniGauss.sampleR (fl : K → K) (b : UniGauss K) (size : ℤ) (ω : Draws K) : Except PyErr (Gen (List K)) :=
  if b.std.any (fun s => s < 0) then .error .valueError
  else if size < 0 then .error .valueError
  else if ¬ ((b.mean.length = b.n ∨ b.mean.length = 1) ∧ (b.std.length = b.n ∨ b.std.length = 1)) then
    .error .valueError
  else .ok { dt := .float, cols := b.n,
             rows := (List.range size.toNat).map (fun i => (List.range b.n).map (fun j =>
               fl (b.mean.getD (if b.mean.length = 1 then 0 else j) 0 +
                 fl (b.std.getD (if b.std.length = 1 then 0 else j) 0 * ω i j)))) }

/-- Rounding of every value: `self.generation += white_noise` (eda.py:188) rounds the sum, before anything is
learned from it. -/
def Gen.roundR (fl : K → K) (g : Gen (List K)) : Gen (List K) := { g with rows := g.rows.map (List.map fl) }

/-- `self.init.sample(size=self.size_gen)` (eda.py:88) of the initializer of `UMDAc` and `PBIL`, with rounding. -/
def contInitSampleR [FloorRing K] (fl : K → K) (cfg : UMDAcCfg K) (ω : Draws K) : Except PyErr (Gen (List K)) :=
  match contInit cfg with
  | .error err => .error err
  | .ok (.gauss b) => b.sampleR fl cfg.base.sizeGen ω
  | .ok (.uniform u) => u.sample fl cfg.base.sizeGen ω

/-- Constructor shared by `UMDAc` and `PBIL`, with rounding. -/
def mkContR [FloorRing K] (fl : K → K) (base : BaseCfg K (List K)) (cfg : UMDAcCfg K)
    (learn : UniGauss K → Gen (List K) → Except PyErr (UniGauss K)) :
    Except PyErr (Eda (List K) (UniGauss K) (Draws K) × UniGauss K) :=
  match mkEda fl base (contInitSampleR fl cfg) (fun b g _ _ => learn b (g.roundR fl))
      (fun b ω => b.sampleR fl cfg.base.sizeGen ω) with
  | .error err => .error err
  | .ok e =>
    match contInit cfg with
    | .error err => .error err
    | .ok _ => .ok (e, UniGauss.new cfg.base.nVars cfg.lowerFactor)

/-- umda_continuous.py:92-106 `UMDAc.__init__`, all arithmetic rounded. -/
def UMDAcR [FloorRing K] (fl sq : K → K) (order : ℕ → SumTree) (cfg : UMDAcCfg K) :
    Except PyErr (Eda (List K) (UniGauss K) (Draws K) × UniGauss K) :=
  mkContR fl cfg.base cfg (UniGauss.learnR fl sq order)

/-- pbil.py:91-108 `PBIL.__init__`, all arithmetic rounded. -/
def PBILR [FloorRing K] (fl sq : K → K) (order : ℕ → SumTree) (cfg : UMDAcCfg K) :
    Except PyErr (Eda (List K) (UniGauss K) (Draws K) × UniGauss K) :=
  mkContR fl { cfg.base with alpha := 1 } cfg (UniGauss.learnAdaptR fl sq order cfg.base.alpha)

end Verif
