/-
What a linear Gaussian Bayesian network means, independently of the code: the values of the nodes
are obtained from independent standardised draws, one per node, by the structural equations
`X = beta[0] + Σ beta[j] · parent[j] + √variance · draw`.
-/
import Verif.Model.Net
import Verif.Spec.Moments

namespace Verif

namespace Spec

/-- The network is a linear Gaussian network over distinct names: every coefficient belongs to a
parent and parents come before their children in the order `top`. -/
structure NetWf {L K : Type} [Field K] [LinearOrder K] (net : GNet L K) : Prop where
  nodup : net.top.Nodup
  beta : ∀ l ∈ net.top, (net.cpd l).beta.length = (net.cpd l).evidence.length + 1
  order : ∀ (i : ℕ) (l : L), net.top[i]? = some l → ∀ p ∈ (net.cpd l).evidence, p ∈ net.top.take i
  parents : ∀ l ∈ net.top, (net.cpd l).evidence.Nodup
  variance : ∀ l ∈ net.top, 0 ≤ (net.cpd l).variance

/-- `beta[0] + Σ beta[j] · v(parent[j])`. -/
def linear {L K : Type} [Field K] (c : CPD L K) (v : L → K) : K :=
  c.beta.headD 0 + (List.zipWith (fun b p => b * v p) (c.beta.drop 1) c.evidence).sum

/-- The random variables `X l` (functions of the draws `z`) follow the network. -/
def Follows {L : Type} (net : GNet L ℝ) (X : L → (ℕ → ℝ) → ℝ) : Prop :=
  ∀ (i : ℕ) (l : L), net.top[i]? = some l → ∀ z,
    X l z = linear (net.cpd l) (fun p => X p z) + Real.sqrt (net.cpd l).variance * z i

/-- Distinct parents of every node are uncorrelated. -/
def UncorrelatedParents {L : Type} (E : ((ℕ → ℝ) → ℝ) → ℝ) (net : GNet L ℝ)
    (X : L → (ℕ → ℝ) → ℝ) : Prop :=
  ∀ l ∈ net.top, ∀ p ∈ (net.cpd l).evidence, ∀ q ∈ (net.cpd l).evidence, p ≠ q →
    Cov E (X p) (X q) = 0

/-- At every node the variance is the sum of the own variance and of the squared coefficients times
the variances of the parents. -/
def VarianceAdds {L : Type} (E : ((ℕ → ℝ) → ℝ) → ℝ) (net : GNet L ℝ)
    (X : L → (ℕ → ℝ) → ℝ) : Prop :=
  ∀ l ∈ net.top, Cov E (X l) (X l) = (net.cpd l).variance +
    (List.zipWith (fun b p => b ^ 2 * Cov E (X p) (X p)) ((net.cpd l).beta.drop 1)
      (net.cpd l).evidence).sum

/-- `mean` (a function of the values of the variables `names`) and `cov` describe the distribution
of the variables `free` given `names`: the prediction errors have expectation zero, they are
uncorrelated with the given variables and `cov` is their covariance matrix. -/
structure IsConditional {L : Type} (E : ((ℕ → ℝ) → ℝ) → ℝ) (X : L → (ℕ → ℝ) → ℝ)
    (free names : List L) (mean : List ℝ → List ℝ) (cov : List (List ℝ)) : Prop where
  unbiased : ∀ i l, free[i]? = some l →
    E (fun z => X l z - (mean (names.map (fun b => X b z))).getD i 0) = 0
  orthogonal : ∀ i l, free[i]? = some l → ∀ b ∈ names,
    Cov E (fun z => X l z - (mean (names.map (fun b => X b z))).getD i 0) (X b) = 0
  covariance : ∀ i l, free[i]? = some l → ∀ j l', free[j]? = some l' →
    entry cov i j = Cov E (fun z => X l z - (mean (names.map (fun b => X b z))).getD i 0)
      (fun z => X l' z - (mean (names.map (fun b => X b z))).getD j 0)

/-- The block of a matrix indexed by names. -/
def gram {L K : Type} (S : L → L → K) (ls ls' : List L) :
    Matrix (Fin ls.length) (Fin ls'.length) K := fun i j => S ls[i] ls'[j]

/-- The same block as a list of rows. -/
def gramRows {L K : Type} (S : L → L → K) (ls ls' : List L) : List (List K) :=
  ls.map (fun l => ls'.map (fun l' => S l l'))

/-- The upper left `n × n` part of a matrix given by its rows. -/
def mat {K : Type} [Field K] (n : ℕ) (m : List (List K)) : Matrix (Fin n) (Fin n) K :=
  fun i j => entry m i j

/-- `p` is the Moore–Penrose pseudo-inverse of `a`. -/
structure IsPinv {K : Type} [Field K] {n : ℕ} (a p : Matrix (Fin n) (Fin n) K) : Prop where
  one : a * p * a = a
  two : p * a * p = p
  three : (a * p).transpose = a * p
  four : (p * a).transpose = p * a

/-- `pinv` returns the pseudo-inverse of the `n × n` matrix `a`, with the same shape. -/
structure PinvAt {K : Type} [Field K] (pinv : List (List K) → List (List K)) (n : ℕ)
    (a : List (List K)) : Prop where
  rows : (pinv a).length = n
  cols : ∀ r ∈ pinv a, r.length = n
  inverse : IsPinv (mat n a) (mat n (pinv a))

/-- The hill climbing of the library honours the lists it receives, and fitting the parameters keeps
the arcs. -/
structure Honours {S L K Ω : Type} (lib : NetLib S L K Ω) : Prop where
  white : ∀ data args ω pm, lib.hc data args ω = .ok pm → ∀ a ∈ args.whitelist, a ∈ lib.arcs pm
  black : ∀ data args ω pm, lib.hc data args ω = .ok pm → ∀ a ∈ args.blacklist, a ∉ lib.arcs pm
  fit : ∀ pm data pm', lib.fit pm data = .ok pm' → lib.arcs pm' = lib.arcs pm

/-- `setDiff a b` lists the elements of the set difference, each once, in some order. -/
def IsSetDiff {L : Type} (setDiff : List L → List L → List L) : Prop :=
  ∀ a b, (setDiff a b).Nodup ∧ ∀ l, l ∈ setDiff a b ↔ l ∈ a ∧ l ∉ b

end Spec

end Verif
