# Formal model of EDAspy

Lean 4.33.0 + Mathlib. `/repo` is read as text; nothing of it is executed.

## Layout

| directory | content |
|---|---|
| `Verif/Py.lean` | Python / numpy primitives: exceptions as values, slices, `min`, `np.where`, the contract of `argsort`, `array_split`, `apply_along_axis`, comparison of costs including NaN |
| `Verif/Model/*.lean` | the modelled code, function by function, each definition citing file and lines in `/repo` |
| `Verif/Spec/*.lean` | small specifications written independently of the model |
| `Verif/Lemmas/*.lean` | auxiliary lemmas |
| `Verif/Props/*.lean` | the property theorems (names begin with the id, `C01_…`), each with a concrete non-trivial `example` meeting its hypotheses |

`properties.jsonl` states the properties in English, `MANIFEST.json` lists the theorems for each,
`seeded/LOG.jsonl` records the wrong programs the theorems were tested against.

A property that the code violates is kept as stated. Its negation is proved with a concrete witness (suffix `_refuted`),
and what does hold is proved in a theorem with suffix `_partial`. Its status is then "partial".

## Trusted base

* Lean's kernel. Every theorem uses at most the axioms `propext`, `Classical.choice`, `Quot.sound`.
* The correspondence between the Lean definitions and the cited Python lines (read by hand).
* The behaviour of Python, numpy and scipy written down in `Verif/Py.lean` and in the models.
* The contracts of the libraries that are parameters (see below). A theorem that needs a contract has it as a hypothesis.

## What is modelled

| code | model | remarks |
|---|---|---|
| `optimization/eda.py`, `eda_result.py`, `utils.py` | `Core`, `Base` | the loop with arrays as values |
| the same | `Heap` | the loop with arrays in memory, references, in-place `+=`, views of rows (C52) |
| the same | `Raise` | the loop for cost functions that raise (C66) |
| the same | `Mutate` | the loop for cost functions that change the row they receive (C73) |
| `eda.py` printing | `Output` | the values in the printed lines, not the text around them (C65) |
| `eda.py` `export_settings`, keyword calls of all constructors | `Settings` | defaults, missing and unexpected keywords (C50, C94) |
| `eda.py` setters, `custom/eda_custom.py` | `Custom` | assignments, `read_settings`, identifiers, runs of `EDACustom` |
| `univariate_binary.py`, `uni_bin_geninit.py`, `umda_binary.py` | `UniBin` | rounding of the division is a parameter |
| `univariate_gaussian.py`, `adaptive_univariate_gaussian.py`, `uniform_geninit.py`, `uni_gauss_geninit.py`, `umda_continuous.py`, `pbil.py` | `Gauss` | rounding only in the uniform initializer |
| `univariate_categorical.py`, `categorical_geninit.py`, `umda_categorical.py` | `RoundCat` | the same functions with every operation rounded (C82), including numpy's `choice` (`kahan_sum`, `cumsum`, `searchsorted`) |
| `multivariate_gaussian.py`, `multi_gauss_geninit.py`, `emna.py` | `MultiGauss` | the factorisation in `multivariate_normal` is a parameter |
| `univariate_categorical.py`, `categorical_geninit.py`, `umda_categorical.py`, `ebna.py`, `boa.py` | `Categorical` | the discrete network (pgmpy) is a parameter |
| `gaussian_bayesian_network.py`, `semiparametric_bayesian_network.py`, `kde_bayesian_network.py` | `Net`, `PySet` | pybnesian is a parameter; the inference of `GBN` is modelled; iteration order of Python sets is a parameter, `PySet` gives CPython's |
| `discrete_bayesian_network.py` | `Bn` | pgmpy's search, fit and simulate are parameters, its `add_edge` is modelled; refines the parameter in `Categorical` |
| `egna.py`, `speda.py`, `multivariate/keda.py`, `univariate_kde.py`, `univariate/keda.py` | `Archive` | `gaussian_kde` is modelled up to the factorisation of its covariance |
| `latin_hypercube_sampling_geninit.py` | `Lhs` | Lloyd's optimisation is a parameter |
| `tools.py` | `Tools`, `Plot` | what is drawn and where; not the look of it |
| `benchmarks/continuous.py`, `benchmarks/binary.py` | `Bench`, `Tools` | real numbers instead of floats |
| `univariate_gaussian.py`, `adaptive_univariate_gaussian.py`, `umda_continuous.py`, `pbil.py` | `Round` | the same functions with every operation rounded (C81); order of the additions of `np.mean` is a parameter, numpy's is given |
| IEEE double rounding | `Float64` | round to nearest, ties to even; no overflow |
| concrete costs: fields, NaN and infinities, Python `int`/`float` | `Costs` | |

Not modelled: the text of printed lines and of error messages, the look of figures, the file system (the
numbers in the data files of the benchmarks are parameters; a missing file is a `FileNotFoundError`), timing, pickling and process creation in
`multiprocessing`, the internals of pybnesian, pgmpy, matplotlib and of scipy's Lloyd optimisation and matrix
factorisations, the base-class methods that only raise `Exception('Not implemented')`, the `logl` methods (one call
of the library each; C92 takes its result to be `Spec.logDensity`), `setup.py`, docs, notebooks and tests.

## Modelling decisions

* **Exceptions** are values of `PyErr`; every model function that can raise returns `Except PyErr _`.
  Order of evaluation is kept, so the theorems say which exception is raised first.
* **Randomness** is an oracle: each call that draws random numbers takes the drawn values as an argument;
  theorems quantify over all of them. Statements about distributions (C34, C55, C57, C58) are about the expectation over
  draws with mean 0, variance 1 and no correlation, which independent standard normal draws satisfy (`normal_expectation`).
  C64 is about a product measure on the sampling draws; C74 about any probability space that carries independent draws
  with exactly uniform or standard normal laws. That numpy's generators provide such draws is an assumption.
* **Costs** are an abstract type with Python's `<`, `==`, and `b*(1+ftol)`. Laws: a strict weak order on the
  non-NaN values, NaN is incomparable. Instances: every linearly ordered field, and a field extended by NaN and infinities.
  The dtype cast done by `apply_along_axis` (array dtype = dtype of the first result) is modelled by `castLike`.
* **Cost function**: `f : ℕ → R → C`, the number is the running number of the call, so noisy and stateful cost
  functions are covered. It returns a scalar. It does not raise and does not change its argument, except in `Raise` and `Mutate`.
* **argsort** is a parameter: any function that returns a permutation sorting the costs with NaN last
  (numpy's default sort is not stable).
* **Parallel evaluation**: number of CPUs and order in which workers finish are parameters.
* **Arithmetic** is exact (ordered field or ℝ) unless a rounding `fl` is a parameter: selection sizes
  `int(size_gen*alpha)`, `UniBin.learn`, uniform initializer, and everything in `Round` and `RoundCat`. `fl64` is IEEE double rounding; C20, C22, C30, C48,
  C49, C81 and C82 are proved for it. C70 holds for every rounding in these places.
* `np.sqrt` is any function that returns non-negative square roots; `np.linalg.pinv` any function that returns the
  Moore-Penrose inverse; `hc` of pybnesian any search that honours the lists it receives.
* **dtype** of the generation (int/float/object) is modelled, because in-place `+=` depends on it.
* The ghost field `log` of the state lists all calls of the cost function; no modelled function reads it.

## Properties

| id | subject | how proved |
|---|---|---|
| C01-C06, C08, C51 | `EDA.minimize` over an abstract algorithm (init, noise, learn, sample are parameters) | invariants over the loop |
| C03, C07 | tolerance, costs in an ordered field | counting induction |
| C09-C11 | `_truncation` + loop, with the list of all calls | argsort contract; invariant: elite costs = prefix of the sorted list of all costs |
| C12, C14, C45, C49, C61 | constructors, first generation, white noise, NaN costs | case analysis and loop invariants |
| C13, C54 | `array_split`, `pool.map` with any completion order, dtype cast | list induction; counterexamples |
| C15, C16, C59 | reuse of objects, archive | sliding window invariant; counterexample for reuse |
| C17-C19, C46, C50 | setters, dictionaries of settings, `EDACustom` | evaluation for all configurations |
| C20-C23, C64 | `UniBin`, `UMDAd` | closed forms; probability by conditioning on the earlier draws |
| C24-C26, C30-C33, C48, C55 | Gaussian models and initializers | closed forms, then specification; real linear algebra |
| C27-C29, C47, C56 | categorical models | list induction; loop invariants |
| C74 | laws of the samplers | images of measures, independence of functions of independent draws (Mathlib) |
| C75 | runs that never leave one individual | invariant "all individuals are w", C74 for the first generation |
| C76 | leaving every interval | no learned deviation is below `lower_factor`; probability by conditioning as in C64 |
| C77 | expected progress on separable costs | selection keeps the lowest costs of the pool; expectation of the laws of C74 is linear |
| C79 | the population becomes uniform | trials whose success depends on the past (Lemmas/Adaptive), uniform generations stay uniform (Lemmas/Drift) |
| C80 | the white noise averages out | false: one noise matrix per run; the learned means in every iteration, and the law of the shift (Props/Noise) |
| C81 | `UMDAc` and `PBIL` in double precision | error of rounded sums by induction over the order of the additions, composed (Lemmas/Round); runs as for C53 (Props/Round) |
| C82 | `UMDAcat` in double precision | error of the compensated and of the cumulative sums (Lemmas/RoundCat); counting grid points of an interval; runs as for C53 (Props/RoundCat) |
| C83 | the order of `init_data` | the sort without ties is unique, then congruence of the two loops (Lemmas/Order); false because of the first elite (eda.py:165-167) |
| C84 | expected time of `UMDAd` to an optimum | geometric tails from C64, summed (Props/HitTime) |
| C85 | a variable that the cost function ignores is fixed by genetic drift | coupling of the runs over the draws of one column (Lemmas/NeutralRun), Wright-Fisher moments (Lemmas/Neutral, Props/Neutral) |
| C86 | `print_structure` and the independence of the sampled variables | joint laws of C74; covariance of normal and mixture laws; draws of ancestors are disjoint (Lemmas/Structure, Props/Structure) |
| C87 | `UMDAd` treats both values of a bit alike | simulation of the run with the draws `1 - u`; ties have probability 0; reflection preserves the product measure (Lemmas/Flip, Props/Flip) |
| C88, C89 | black-box search and no free lunch | causality of the loop (Lemmas/BlackBox); the cost functions with given answers form a cylinder (Lemmas/NoFreeLunch, Props/BlackBox) |
| C90 | `EDACustom` with the parts of a ready-made algorithm | the loop commutes with a change of the representation of the model (Lemmas/Embed, Props/CustomRun) |
| C92 | `maximum_a_posteriori` and the density of the network | the conditional mean belongs to the smallest draws that meet the evidence (Lemmas/NetDensity, Props/NetMode) |
| C93 | the names of the categories in `UMDAcat` | simulation for order preserving renamings (Lemmas/Rename); otherwise equal laws of the samplers give equal laws of the runs, by induction over the iterations (Lemmas/LawSim, Lemmas/RenameLaw) |
| C94 | calls of the constructors | signatures compared with a table of required and default arguments (Spec/Settings), then cases (Props/Calls) |
| C95 | learning from own samples | strong law of large numbers for the draws (Lemmas/Slln), the limit of the learned parameters is continuous in the sample moments; uniqueness of limits for the refutation (Props/Consistent) |
| C96 | convergence of UMDAc and PBIL in probability | the selected rows stay in a level set because the elite is as large as the selection; so means and deviations are bounded and each generation hits a box with a probability bounded below (Lemmas/ConvBox, ConvLearn); the populations are measurable functions of the draws (Lemmas/ListMeas, ConvRun) and each generation is independent of the past (Lemmas/Fresh) |
| C97 | reversing axes | the run on mirrored draws is the mirror image of the run (simulation as for C68); the map of the draws (sign change of normal numbers, `1 - x` of uniform ones) is a measure preserving involution, so the laws agree on all sets of outcomes; `EMNA` loses negative covariances to the clamp: refuted for one axis, proved for all axes together |
| C98 | loss of spread | selection depends on the other variables only, so the selected values of variable `j` are independent normal numbers; the empirical variance of `q` of them has expectation `(1 - 1/q) d²`; induction over the iterations with a coupling of the runs (`withColumn`, as for C85) |
| C99 | runs stay near their first generation | the selected individuals are an affine image of normal numbers chosen by a function of the weighted sum (UMDAc) or all of them (PBIL): the expected deviation shrinks by `√(1 - 1/q)` in every iteration (Lemmas/SlopePick, SlopeGen), so the total way of the mean and of the samples has a finite expectation; Markov's inequality (Lemmas/SlopeRun) |
| C100 | how long `UMDAd` needs at least | the draws of an individual equal to the target lie in a box that does not depend on what was learned; union bound, and independence of the boxes for the expectation (Props/HitSlow) |
| C101 | how `EMNA` leaves equal individuals | the covariance of the samples is the positive semidefinite square root of the squared matrix; no column of the factor vanishes when the off-diagonal entries are at least `lower_factor` > 0, so no value has positive probability; all vanish when it is not positive (Lemmas/EmnaSpread, Props/EmnaSpread) |
| C102 | `EMNA` leaves every bounded region | as long as all evaluated individuals are in the box, the learned matrix is bounded while its off-diagonal entries are at least `lower_factor` > 0, so every column of the factor has an entry bounded below; large draws (`spikes`, of positive probability) then leave the box (Lemmas/EmnaLeave, Props/EmnaLeave) |
| C103 | `EMNA` confined to a line | invariant: the two selected individuals and the elite stay the same two points; the matrix learned from them has four equal entries, so both columns of its factor are equal (Props/EmnaLine) |
| C104 | `UnivariateKEDA` reaches every open region; singular matrices have probability 0 | the factor of a positive definite matrix is invertible, so a box of normal numbers is mapped into the region (`infinitePi_pi`); n + 1 affine images of independent draws with densities are almost surely in general position (`genPos_affine`, zero set of a polynomial), hence the covariance of every selection that contains n + 1 new individuals is positive definite (Lemmas/GenPos, Lemmas/KedaRun, Props/KedaReach) |
| C105 | `UnivariateKEDA` does not depend on the coordinate system (affine invariance) | the covariance is mapped to Bᵀ C B; two factors of the same positive definite matrix differ by an orthogonal matrix (`kedaTurn_orthogonal`); simulation of the two runs (`minimize_sim`) with rotated draws; the product of standard normal laws is invariant under rotations (Spec/Affine, Lemmas/Affine, Lemmas/Rotation, Props/KedaAffine) |
| C106 | `UnivariateKEDA` multiplies the variance of the selected individuals by (N - 1)/N + h² > 1 in expectation | a linear function of an individual is a sum of functions of single independent draws (`kdeVal_moments`); the sample variance is unbiased (`exp_sample_var`); the last generation as a function of its draws (`keda_last_gen`) (Lemmas/KdeSpread, Props/KedaSpread) |
| C107 | `EMNA` gives every variable at least the deviation of the selected individuals as its expected variance | for a symmetric matrix the variances of what numpy samples are at least its diagonal (`svdRoot_diag`: the absolute value of a symmetric matrix dominates its diagonal); `exp_sample_var` of C106 for normal draws (`normal_spread`); `last_pass` of C77 for the run (Props/EmnaWidth) |
| C108 | `UMDAc` and `PBIL` keep only the deviations of the single variables: the expected spread in a direction does not depend on correlations | `normal_spread` of C107 for a linear function of an individual (`gauss_spread`); what `learn` does to the deviations (`deviates_learn`, `deviates_learnAdapt`); `last_pass` of C77 (Props/Forget) |
| C109 | on sums of squares a generation of `UMDAc` is expected to be as good as the selected individuals, one of `EMNA` to be worse near the minimum | the mean cost is the cost of the mean plus the variances, for lists (`mean_squares`) and for normal draws (`normal_squares`); `svdRoot_diag` of C107; `expected_progress` and `last_pass` of C77 (Props/Quadratic) |
| C110 | on sums of squares a generation of `UnivariateKEDA` is expected to be worse than the selected individuals, by the squared bandwidth times their variances | the first and second moment of a linear function of a sampled individual (`kdeVal_mean`, `kdeVal_second`), one per variable; `keda_last_gen` of C106 (Props/KedaQuadratic) |
| C111 | on sums of squares a generation of `PBIL` is expected to be better than the selected individuals exactly when the moved mean is better than their mean | `mean_squares` and `normal_squares` of C109, the learned mean of C25, the learned deviation of C108 (Props/PbilQuadratic) |
| C112 | on quadratic functions of interacting variables a generation of `UMDAc` is expected to cost what the selected individuals cost, with their variance along every term replaced by that of independent variables | `mean_forms`, `gauss_forms` from `mean_squares` and `normal_second` of C109, `independentSpread` of C108 (Props/Forms) |
| C113 | on quadratic functions of interacting variables a generation of `UnivariateKEDA` is expected to cost what the selected individuals cost, plus the squared bandwidth times their variances along the terms | `kdeVal_second` of C110 for each term, `spread_cov` and `keda_last_gen` of C106 (Props/KedaForms) |
| C71, C72 | Bayesian networks and their libraries | congruence of runs: two libraries that agree on the calls made |
| C34-C38, C57 | Bayesian networks | induction over the topological order; projection argument for conditioning |
| C39-C41, C67 | plotting tools | list induction |
| C42, C43, C78, C91 | benchmark functions over ℝ | real analysis, matrices |
| C44 | `one_max` | list induction |
| C52 | aliasing | refinement between the heap model and the value model |
| C53, C60 | instantiated algorithms do not raise | progress lemma for the loop |
| C58, C60 | `UniKDE` | moments; rank argument for singular covariances |
| C62, C63, C68-C70 | comparison of two runs | simulation relations over the loop |
| C65, C66, C73 | printed lines, cost functions that raise or change their argument | relation with the run of the basic model |
