/-
Model of `LatinHypercubeSampling` (latin_hypercube_sampling_geninit.py).  scipy's Lloyd optimisation
is a parameter; `qmc.LatinHypercube.random` and `qmc.scale` are modelled.
-/
import Verif.Model.Gauss

namespace Verif

variable {K : Type} [Field K] [LinearOrder K]

/-- latin_hypercube_sampling_geninit.py:17-39 `LatinHypercubeSampling`. -/
structure Lhs (K : Type) where
  n : ℕ
  lower : Bound K
  upper : Bound K

/-- latin_hypercube_sampling_geninit.py:17-39 `__init__` (`type(x) is np.array` is never true, so
only lists are checked). -/
def Lhs.new (n : ℕ) (lower upper : Bound K) : Except PyErr (Lhs K) :=
  if ¬ lower.check n then .error .assertion
  else if ¬ upper.check n then .error .assertion
  else .ok { n := n, lower := lower, upper := upper }

/-- The random numbers of one call: `perm j` is the permutation of `1, …, size` for variable `j`
(`rng.permuted`), `u i j` is uniform in `[0, 1)`. -/
structure LhsDraws (K : Type) where
  perm : ℕ → ℕ → ℕ
  u : ℕ → ℕ → K

/-- `qmc.LatinHypercube(d).random(n)` without optimisation: `(perms - u) / n`. -/
def latinHypercube (d size : ℕ) (ω : LhsDraws K) : List (List K) :=
  (List.range size).map (fun i => (List.range d).map (fun j =>
    ((ω.perm j i : K) - ω.u i j) / (size : K)))

/-- `qmc.scale(sample, lower, upper)`: the sample must lie in the unit hypercube and not be empty, the
bounds must broadcast to the columns and satisfy `lower < upper` everywhere, otherwise `ValueError`.
`None` as a bound fails in the comparison with a `TypeError`. -/
def qmcScale (d : ℕ) (sample : List (List K)) (lower upper : Bound K) :
    Except PyErr (Gen (List K)) :=
  if sample = [] ∨ d = 0 then .error .valueError
  else if ¬ sample.all (fun r => r.all (fun x => 0 ≤ x ∧ x ≤ 1)) then .error .valueError
  else if ¬ (lower.fits d ∧ upper.fits d) then .error .valueError
  else if lower.isNone ∨ upper.isNone then .error .typeError
  else if ¬ (List.range d).all (fun j => lower.at j < upper.at j) then .error .valueError
  else .ok { dt := .float, cols := d,
             rows := sample.map (fun r => (List.range d).map (fun j =>
               r.getD j 0 * (upper.at j - lower.at j) + lower.at j)) }

/-- latin_hypercube_sampling_geninit.py:41-57 `sample`; `lloyd d` is scipy's optimisation of a sample
in `d` dimensions. -/
def Lhs.sample (lloyd : ℕ → List (List K) → Except PyErr (List (List K))) (b : Lhs K) (size : ℤ)
    (postProcess : Bool) (ω : LhsDraws K) : Except PyErr (Gen (List K)) :=
  if size < 0 then .error .valueError
  else if postProcess then
    qmcScale b.n (latinHypercube b.n size.toNat ω) b.lower b.upper
  else
    match lloyd b.n (latinHypercube b.n size.toNat ω) with
    | .error err => .error err
    | .ok sample => qmcScale b.n sample b.lower b.upper

end Verif
