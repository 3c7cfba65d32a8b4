{"id": "C01", "title": "best_cost was really observed", "statement": "When minimize returns, result.best_cost is an entry of result.history and is a value the cost function returned for an individual evaluated during this very run.", "quantifier": "every algorithm configuration, probabilistic model, initializer, cost function (including noisy or stateful ones), tolerance and sequence of random draws; cost values of one numeric type (mixtures of int and float are C54)", "why_tests_cant": "the run is stochastic and unbounded in length; a test samples a few seeds of a few algorithms", "anchors": ["EDAspy/optimization/eda.py:EDA.minimize"]}
{"id": "C02", "title": "best_ind is the individual that obtained best_cost", "statement": "When minimize returns, result.best_ind is an evaluated individual (a row of n_variables values) and the cost function returned result.best_cost for exactly that individual.", "quantifier": "every configuration, cost function and sequence of random draws, including max_iter = 1 and runs that never improve on the initial generation; cost values of one numeric type (mixtures of int and float are C54)", "why_tests_cant": "the failing histories are exactly those where no later generation beats the first one; seeds that improve hide it", "anchors": ["EDAspy/optimization/eda.py:EDA.minimize"]}
{"id": "C03", "title": "best_cost is the minimum of the history (up to the tolerance)", "statement": "result.best_cost equals min(result.history) when ftol = 0; for ftol >= 0 and T generations: best_cost <= (1+ftol)^(T-1-j) * history[j] if the costs are non-negative, best_cost*(1+ftol) <= history[j] if they are non-positive, and best_cost <= history[j] + ftol*M*(T-j) if they are bounded by M in absolute value.", "quantifier": "every history of per-generation best costs of any length and sign, every ftol >= 0", "why_tests_cant": "the gap compounds over arbitrarily long histories and depends on the sign of the costs", "anchors": ["EDAspy/optimization/eda.py:EDA.minimize"]}
{"id": "C04", "title": "history[t] is the minimum cost of generation t", "statement": "result.history has one entry per evaluated generation, in order, and entry t is the smallest cost the cost function returned for the individuals of generation t; the cost function is applied to every individual of the generation exactly once and in order.", "quantifier": "every configuration, cost function, random draws and iteration number; cost values of one numeric type (mixtures of int and float are C54)", "why_tests_cant": "quantifies over every iteration of every run", "anchors": ["EDAspy/optimization/eda.py:EDA.minimize", "EDAspy/optimization/eda.py:EDA._check_generation_no_parallel"]}
{"id": "C05", "title": "bounded number of iterations", "statement": "minimize evaluates at least one and at most max(1, max_iter) generations, so it always terminates.", "quantifier": "every configuration including max_iter <= 1 and dead_iter <= 0, every cost function and random draws", "why_tests_cant": "termination and a bound for every history cannot be observed by finitely many runs", "anchors": ["EDAspy/optimization/eda.py:EDA.minimize"]}
{"id": "C06", "title": "dead_iter stops the run exactly after dead_iter consecutive non-improving generations", "statement": "If minimize stops before max_iter generations then dead_iter >= 1 and the last dead_iter generations were all non-improving; no earlier window of dead_iter consecutive non-improving generations exists; with dead_iter <= 0 the run never stops early.", "quantifier": "every sequence of generations and costs, every dead_iter and max_iter", "why_tests_cant": "early stopping depends on the whole history of improvements", "anchors": ["EDAspy/optimization/eda.py:EDA.minimize"]}
{"id": "C07", "title": "stagnation triggers dead_iter", "statement": "If the best cost never changes during a run (a constant cost function), the run stops after dead_iter generations without improvement.", "quantifier": "every constant cost value of either sign, every ftol >= 0, every algorithm and random draws", "why_tests_cant": "the outcome flips with the sign of the cost; tests use a benchmark with a fixed positive bias", "anchors": ["EDAspy/optimization/eda.py:EDA.minimize"]}
{"id": "C08", "title": "n_fev counts the cost function calls", "statement": "result.n_fev equals the number of times the cost function was called during the run.", "quantifier": "every configuration, with and without init_data of any number of rows, every random draws and early stop", "why_tests_cant": "tests only compare both numbers for one size and without init_data", "anchors": ["EDAspy/optimization/eda.py:EDA.minimize", "EDAspy/optimization/eda.py:EDA._initialize_generation_with_data"]}
{"id": "C09", "title": "truncation keeps exactly the best individuals", "statement": "Selection keeps min(truncation_length, pool size) individuals of the pool (current generation plus elite), in ascending order of cost, together with their own costs, and no discarded individual is strictly cheaper than a kept one.", "quantifier": "every pool size, cost vector with ties, NaN-free or not, every valid argsort result (the sort is not stable)", "why_tests_cant": "ties and the unstable sort make the outcome depend on the pool; all pools must be covered", "anchors": ["EDAspy/optimization/eda.py:EDA._truncation"]}
{"id": "C10", "title": "the elite is the best of everything evaluated so far", "statement": "After every selection step the elite consists of individuals that were really evaluated, paired with the cost the cost function returned for them, and its costs are the elite_length smallest of all costs returned so far in the run (counting the very first individual twice).", "quantifier": "every iteration of every run, every cost function and random draws; cost values of one numeric type (mixtures of int and float are C54)", "why_tests_cant": "an invariant over unbounded histories", "anchors": ["EDAspy/optimization/eda.py:EDA._truncation", "EDAspy/optimization/eda.py:EDA.minimize"]}
{"id": "C11", "title": "the best individual found is never lost", "statement": "If elite_length >= 1, after every selection step some elite individual has a cost that is no larger than every cost returned so far in the run.", "quantifier": "every iteration of every run; cost values of one numeric type (mixtures of int and float are C54)", "why_tests_cant": "an invariant over unbounded histories", "anchors": ["EDAspy/optimization/eda.py:EDA._truncation"]}
{"id": "C12", "title": "white noise perturbs only the training set", "statement": "The same noise matrix, drawn once per run, is added to the selected individuals in every iteration before learning; elite individuals and their recorded costs are unaffected; if the selection has a different number of rows than truncation_length the run raises ValueError; with w_noise 0 or None the model is learned from exactly the selected individuals.", "quantifier": "every iteration, every noise draw, every selection size", "why_tests_cant": "needs every iteration and every shape", "anchors": ["EDAspy/optimization/eda.py:EDA.minimize"]}
{"id": "C13", "title": "parallel evaluation equals sequential evaluation", "statement": "With parallelize=True the evaluation of a generation returns the same costs in the same order as the sequential evaluation, whatever the number of worker processes and the order in which they finish.", "quantifier": "every generation size, CPU count and completion order of the workers", "why_tests_cant": "tests run with one CPU count and one schedule", "anchors": ["EDAspy/optimization/utils.py:_parallel_apply_along_axis", "EDAspy/optimization/eda.py:EDA._check_generation_parallel"]}
{"id": "C14", "title": "init_data is the first generation", "statement": "If init_data is given and its number of columns equals n_variables, the first evaluated generation is exactly init_data, row by row, and the initializer is never used; otherwise construction fails with an assertion.", "quantifier": "every init_data array and n_variables", "why_tests_cant": "all shapes and contents", "anchors": ["EDAspy/optimization/eda.py:EDA.__init__", "EDAspy/optimization/eda.py:EDA._initialize_generation_with_data"]}
{"id": "C15", "title": "minimize does not depend on earlier runs of the same object", "statement": "Calling minimize on an object that already ran returns the same result as on a fresh object, given the same random draws.", "quantifier": "every earlier history of the object, every algorithm", "why_tests_cant": "quantifies over all earlier runs", "anchors": ["EDAspy/optimization/eda.py:EDA.minimize", "EDAspy/optimization/multivariate/speda.py:SPEDA._update_archive", "EDAspy/optimization/multivariate/keda.py:MultivariateKEDA._update_archive"]}
{"id": "C16", "title": "the SPEDA/MultivariateKEDA archive is the window of the last l generations' best", "statement": "At every iteration the archive used to learn the model consists of the most recent l*int(size_gen*alpha) elite individuals in order of arrival, hence never more than that many.", "quantifier": "every l, size_gen, alpha and number of iterations", "why_tests_cant": "an invariant over unbounded histories, with an off-by-one corner at l = 0", "anchors": ["EDAspy/optimization/multivariate/speda.py:SPEDA._update_archive", "EDAspy/optimization/multivariate/keda.py:MultivariateKEDA._update_archive"]}
{"id": "C17", "title": "assigning pm / init is validated and atomic", "statement": "Assigning an object that is not a ProbabilisticModel (GenInit) or whose number of variables differs raises an error and leaves the EDA unchanged; assigning a matching object installs it.", "quantifier": "every EDA and every assigned object, every sequence of assignments", "why_tests_cant": "quantifies over sequences of assignments and their failure points", "anchors": ["EDAspy/optimization/eda.py:EDA.pm", "EDAspy/optimization/eda.py:EDA.init"]}
{"id": "C18", "title": "EDACustom settings round-trip", "statement": "read_settings(eda.export_settings()) builds an EDACustom with the same configuration.", "quantifier": "every EDACustom configuration", "why_tests_cant": "all configurations", "anchors": ["EDAspy/optimization/custom/eda_custom.py:EDACustom.export_settings", "EDAspy/optimization/custom/eda_custom.py:read_settings"]}
{"id": "C19", "title": "exported ids identify the model and the initializer", "statement": "EDACustom(pm=k, init=j) exports pm id k and init id j for k, j in 1..4 and rejects every other id; distinct model classes export distinct ids.", "quantifier": "every integer id and every model class", "why_tests_cant": "all integers", "anchors": ["EDAspy/optimization/custom/eda_custom.py:EDACustom.__init__", "EDAspy/optimization/custom/probabilistic_models/", "EDAspy/optimization/custom/initialization_models/"]}
{"id": "C20", "title": "UniBin.learn estimates clipped frequencies", "statement": "After learn the probability of each variable is the fraction of ones of its column clipped to [lower_bound, upper_bound]; an empty dataset raises ZeroDivisionError.", "quantifier": "every binary (or numeric) dataset and bounds", "why_tests_cant": "all datasets", "anchors": ["EDAspy/optimization/custom/probabilistic_models/univariate_binary.py:UniBin.learn"]}
{"id": "C21", "title": "UniBin.sample is binary and respects the probabilities", "statement": "sample(size) returns size rows of n_variables values in {0,1}; a variable with probability >= 1 is always 1 and one with probability <= 0 is always 0; a variable with 0 < p < 1 can take both values.", "quantifier": "every draw of uniform numbers in [0,1), every probability vector", "why_tests_cant": "all draws", "anchors": ["EDAspy/optimization/custom/probabilistic_models/univariate_binary.py:UniBin.sample"]}
{"id": "C22", "title": "UMDAd with bounds (0,1) fixes agreed bits forever", "statement": "With lower_bound=0, upper_bound=1 and elite_length <= truncation_length, once all selected individuals agree on a bit, every individual of every later generation has that bit.", "quantifier": "every cost function, random draws and number of later iterations", "why_tests_cant": "a liveness/absorption statement over all continuations", "anchors": ["EDAspy/optimization/univariate/umda_binary.py:UMDAd", "EDAspy/optimization/custom/probabilistic_models/univariate_binary.py:UniBin", "EDAspy/optimization/eda.py:EDA._truncation"]}
{"id": "C23", "title": "UMDAd with strict bounds never loses a bit value", "statement": "With 0 < lower_bound < upper_bound < 1, after every learn step every binary string of length n_variables can still be sampled.", "quantifier": "every dataset, every binary string", "why_tests_cant": "all strings and histories", "anchors": ["EDAspy/optimization/univariate/umda_binary.py:UMDAd", "EDAspy/optimization/custom/probabilistic_models/univariate_binary.py:UniBin"]}
{"id": "C24", "title": "UniGauss.learn estimates mean and floored standard deviation", "statement": "After learn on a non-empty dataset, each variable has its column mean and max(column standard deviation, lower_bound) as parameters, so the deviation is never negative and never below lower_bound, and sampling never raises.", "quantifier": "every non-empty dataset and lower bound, every previous state", "why_tests_cant": "all datasets", "anchors": ["EDAspy/optimization/custom/probabilistic_models/univariate_gaussian.py:UniGauss.learn"]}
{"id": "C25", "title": "PBIL model update", "statement": "AdaptUniGauss.learn sets each mean to (1-alpha)*mean(previous model) + alpha*(best1 + best2 - worst) of the ordered dataset and floors the deviation at lower_bound; datasets with fewer than two rows raise IndexError.", "quantifier": "every dataset, alpha, lower bound and previous model", "why_tests_cant": "all datasets and states", "anchors": ["EDAspy/optimization/custom/probabilistic_models/adaptive_univariate_gaussian.py:AdaptUniGauss.learn", "EDAspy/optimization/univariate/pbil.py:PBIL"]}
{"id": "C26", "title": "MultiGauss.learn yields a usable covariance", "statement": "After learn the means are the column means, the covariance matrix is symmetric, its off-diagonal entries lie in [lower_bound, upper_bound], its deviations respect the lower bound and it is positive semidefinite.", "quantifier": "every dataset with at least two rows, every bounds and number of variables", "why_tests_cant": "all datasets", "anchors": ["EDAspy/optimization/custom/probabilistic_models/multivariate_gaussian.py:MultiGauss.learn", "EDAspy/optimization/multivariate/emna.py:EMNA"]}
{"id": "C27", "title": "UniCategorical.learn estimates the empirical distribution", "statement": "After learn the table of each variable assigns to exactly the observed values their relative frequency; the frequencies are positive and sum to 1.", "quantifier": "every dataset of any size and alphabet", "why_tests_cant": "all datasets", "anchors": ["EDAspy/optimization/custom/probabilistic_models/univariate_categorical.py:UniCategorical.learn", "EDAspy/optimization/custom/probabilistic_models/univariate_categorical.py:obtain_probabilities"]}
{"id": "C28", "title": "UMDAcat never leaves the declared categories", "statement": "Every value of every individual evaluated by UMDAcat belongs to the possible_values of its variable (or to init_data), and a category absent from the selected individuals never reappears.", "quantifier": "every cost function, random draws, number of iterations", "why_tests_cant": "an invariant over all runs", "anchors": ["EDAspy/optimization/univariate/umda_categorical.py:UMDAcat", "EDAspy/optimization/custom/probabilistic_models/univariate_categorical.py:UniCategorical", "EDAspy/optimization/custom/initialization_models/categorical_geninit.py:CategoricalSampling"]}
{"id": "C29", "title": "accepted frequencies can be sampled", "statement": "Every frequency table accepted by the CategoricalSampling constructor can be sampled without error, and samples are possible values with positive frequency.", "quantifier": "every frequency table and possible values", "why_tests_cant": "the accepted set is larger than the sampleable set only at particular sums", "anchors": ["EDAspy/optimization/custom/initialization_models/categorical_geninit.py:CategoricalSampling"]}
{"id": "C30", "title": "the initial uniform generation respects the bounds", "statement": "UniformGenInit(n, lb, ub).sample(size) has size rows of n values and the value of variable i lies between lb[i] and ub[i] when lb[i] <= ub[i]; bound lists of the wrong length are rejected at construction.", "quantifier": "every bounds (scalar, list, array) and uniform draws", "why_tests_cant": "all draws and all kinds of bounds", "anchors": ["EDAspy/optimization/custom/initialization_models/uniform_geninit.py:UniformGenInit"]}
{"id": "C31", "title": "Latin hypercube initialisation", "statement": "LatinHypercubeSampling.sample returns values inside the bounds, applies Lloyd post-processing iff post_process=True, and without post-processing places exactly one individual in each of the size equal slices of every variable. Bound lists of the wrong length are rejected at construction.", "quantifier": "every size, number of variables, bounds and draws", "why_tests_cant": "all draws", "anchors": ["EDAspy/optimization/custom/initialization_models/latin_hypercube_sampling_geninit.py:LatinHypercubeSampling"]}
{"id": "C32", "title": "UniGaussGenInit default parameters", "statement": "UniGaussGenInit(n, lower_bound=lb, higher_bound=hb) can be constructed for every lb < hb and draws means in [lb,hb] and non-negative deviations, so it can always be sampled.", "quantifier": "every integer bounds and draws", "why_tests_cant": "all bounds", "anchors": ["EDAspy/optimization/custom/initialization_models/uni_gauss_geninit.py:UniGaussGenInit", "EDAspy/optimization/custom/eda_custom.py:EDACustom.__init__"]}
{"id": "C33", "title": "MultiGaussGenInit default parameters", "statement": "The covariance matrix drawn by MultiGaussGenInit when none is given is symmetric with non-negative diagonal.", "quantifier": "every draw and bounds", "why_tests_cant": "all draws", "anchors": ["EDAspy/optimization/custom/initialization_models/multi_gauss_geninit.py:MultiGaussGenInit"]}
{"id": "C34", "title": "GBN.get_mu returns the marginal means", "statement": "get_mu returns, for each requested variable, the expectation of that variable in the linear Gaussian network described by the learned CPDs, independently of the topological order used; an empty/None request returns all means in topological order.", "quantifier": "every acyclic network, coefficients, request list and topological order", "why_tests_cant": "all networks", "anchors": ["EDAspy/optimization/custom/probabilistic_models/gaussian_bayesian_network.py:GBN.get_mu"]}
{"id": "C35", "title": "GBN.get_sigma returns the joint covariance", "statement": "get_sigma is symmetric (its internal assertion never fails) and entry (i,j) is the covariance of variables i and j in the linear Gaussian network described by the CPDs.", "quantifier": "every acyclic network and coefficients", "why_tests_cant": "all networks; the formula only goes wrong when a node has correlated parents", "anchors": ["EDAspy/optimization/custom/probabilistic_models/gaussian_bayesian_network.py:GBN.get_sigma"]}
{"id": "C36", "title": "GBN.inference returns the conditional Gaussian", "statement": "inference(evidence, names) returns the conditional mean and a symmetric covariance given by the Gaussian conditioning formula applied to the means and covariances that get_mu and get_sigma report (whether those are the network's is C34, C35 and C57); with evidence equal to the prior means it returns the prior means; maximum_a_posteriori returns that mean and requires a fitted network.", "quantifier": "every network, evidence and split of the variables", "why_tests_cant": "all networks and evidence", "anchors": ["EDAspy/optimization/custom/probabilistic_models/gaussian_bayesian_network.py:GBN.inference", "EDAspy/optimization/custom/probabilistic_models/gaussian_bayesian_network.py:GBN.maximum_a_posteriori"]}
{"id": "C37", "title": "sampling with evidence keeps variables in their columns", "statement": "GBN(variables, evidences=...).sample(size) returns columns in the order of variables, every evidence column is constantly the evidence value, and every other column carries the posterior draw of its own variable, for every hash seed / set iteration order.", "quantifier": "every set iteration order, evidence and topological order", "why_tests_cant": "set iteration order depends on the process hash seed", "anchors": ["EDAspy/optimization/custom/probabilistic_models/gaussian_bayesian_network.py:GBN._sample_evidence", "EDAspy/optimization/custom/probabilistic_models/gaussian_bayesian_network.py:GBN.inference"]}
{"id": "C38", "title": "white and black lists are honoured", "statement": "For GBN, KDEBN and SPBN every learned structure contains all white-listed arcs and no black-listed arc (given that the structure learner honours the lists it receives); an empty list means no restriction.", "quantifier": "every dataset and lists, for all three networks", "why_tests_cant": "all lists", "anchors": ["EDAspy/optimization/custom/probabilistic_models/gaussian_bayesian_network.py:GBN.learn", "EDAspy/optimization/custom/probabilistic_models/kde_bayesian_network.py:KDEBN.learn", "EDAspy/optimization/custom/probabilistic_models/semiparametric_bayesian_network.py:SPBN.learn"]}
{"id": "C39", "title": "arcs2adj_mat is the adjacency matrix", "statement": "arcs2adj_mat(arcs, n)[i,j] is 1 iff (i,j) is in arcs and 0 otherwise, for arcs over 0..n-1 (a negative endpoint counts from the end); an arc with an endpoint out of range, or given by variable names, raises IndexError.", "quantifier": "every list of arcs (with repetitions) and n", "why_tests_cant": "all graphs", "anchors": ["EDAspy/optimization/tools.py:arcs2adj_mat"]}
{"id": "C40", "title": "plot positions cover all variables without overlap", "statement": "_set_positions gives every variable a grid position and no two distinct variables the same position; an empty variable list raises ZeroDivisionError.", "quantifier": "every list of distinct variable names", "why_tests_cant": "all sizes", "anchors": ["EDAspy/optimization/tools.py:_set_positions", "EDAspy/optimization/tools.py:plot_bn"]}
{"id": "C41", "title": "alternating plot noise", "statement": "_noise(n, s) is a vector of length n with +s at even and -s at odd positions.", "quantifier": "every n and s", "why_tests_cant": "all sizes", "anchors": ["EDAspy/optimization/tools.py:_noise"]}
{"id": "C42", "title": "CEC14 functions have the advertised optimum", "statement": "Each implemented cec14_k never returns less than its bias 100*k and attains it at the shift vector (for k = 16: it never returns less than its bias).", "quantifier": "every dimension, solution, shift vector and rotation matrix", "why_tests_cant": "a global minimum over a continuum", "anchors": ["EDAspy/benchmarks/continuous.py:ContinuousBenchmarkingCEC14"]}
{"id": "C43", "title": "benchmark functions compute the named functions", "statement": "bent_cigar, discus, rosenbrock, ackley, weierstrass, griewank, rastrigin, high conditioned elliptic, modified Schwefel, katsuura, happycat, hgbat and expanded Scaffer F6 return the value of the CEC'14 function of that name for every vector of the accepted dimension.", "quantifier": "every dimension and solution", "why_tests_cant": "agreement over a continuum", "anchors": ["EDAspy/benchmarks/continuous.py:ContinuousBenchmarkingCEC14"]}
{"id": "C44", "title": "one_max counts ones", "statement": "one_max of a binary vector is the number of ones, lies between 0 and its length and reaches the length only for the all-ones vector; negated it is minimised exactly by all ones.", "quantifier": "every binary vector", "why_tests_cant": "all vectors", "anchors": ["EDAspy/benchmarks/binary.py:one_max"]}
{"id": "C45", "title": "NaN costs", "statement": "If some individual costs are NaN, the run either ignores them (never reporting NaN as best_cost) or raises; precisely: a generation whose first cost is NaN raises IndexError, otherwise NaN is never the reported best.", "quantifier": "every placement of NaN costs", "why_tests_cant": "all placements", "anchors": ["EDAspy/optimization/eda.py:EDA.minimize"]}
{"id": "C46", "title": "every EDACustom pm/init combination can be run", "statement": "EDACustom with any valid pm and init ids can run minimize for any max_iter without a type error.", "quantifier": "every pm/init id pair, cost function, draws", "why_tests_cant": "all combinations and iterations", "anchors": ["EDAspy/optimization/custom/eda_custom.py:EDACustom", "EDAspy/optimization/eda.py:EDA.minimize"]}
{"id": "C47", "title": "categorical EDAs work for any category type", "statement": "UMDAcat/EBNA/BOA run for any categories, in particular integers.", "quantifier": "every category type, cost function and draws", "why_tests_cant": "all runs", "anchors": ["EDAspy/optimization/univariate/umda_categorical.py:UMDAcat", "EDAspy/optimization/eda.py:EDA.minimize"]}
{"id": "C48", "title": "the search respects lower_bound / upper_bound", "statement": "Every individual evaluated by UMDAc, EMNA, EGNA etc. (hence best_ind) lies within [lower_bound, upper_bound].", "quantifier": "every run", "why_tests_cant": "all draws", "anchors": ["EDAspy/optimization/univariate/umda_continuous.py:UMDAc", "EDAspy/optimization/eda.py:EDA.minimize"]}
{"id": "C49", "title": "selection sizes", "statement": "For 0 <= alpha, elite_factor <= 1 and size_gen >= 0 the selection and elite sizes lie between 0 and size_gen, are monotone in the factor, and equal the integer part of the (rounded) product size_gen*factor, hence of the exact product when it is representable. Exceptions among the classes: PBIL selects the whole generation whatever alpha, and the elite of SPEDA and MultivariateKEDA has the size of the selection.", "quantifier": "every size_gen and factor, under any monotone rounding of the product", "why_tests_cant": "all floats", "anchors": ["EDAspy/optimization/eda.py:EDA.__init__"]}
{"id": "C50", "title": "exported settings describe the run", "statement": "result.settings contains the size_gen, max_iter, dead_iter, n_variables, alpha, elite_factor, disp and parallelize the object was constructed with, and rebuilding an EDA from them gives the same settings.", "quantifier": "every configuration of every algorithm", "why_tests_cant": "all configurations", "anchors": ["EDAspy/optimization/eda.py:EDA.export_settings", "EDAspy/optimization/univariate/pbil.py:PBIL"]}
{"id": "C51", "title": "final generation and evaluations are aligned", "statement": "After minimize returns, evaluations[i] is the cost the cost function returned for generation[i], and the generation is the last one evaluated.", "quantifier": "every run; cost values of one numeric type (mixtures of int and float are C54)", "why_tests_cant": "all runs", "anchors": ["EDAspy/optimization/eda.py:EDA.minimize"]}
{"id": "C52", "title": "caller-visible arrays are never mutated", "statement": "minimize never modifies init_data, nor the individual reported as best, nor the elite, through in-place operations on shared arrays.", "quantifier": "every run; every aliasing between arrays the code creates", "why_tests_cant": "aliasing bugs need particular histories", "anchors": ["EDAspy/optimization/eda.py:EDA.minimize", "EDAspy/optimization/eda.py:EDA._truncation"]}
{"id": "C53", "title": "valid configurations never raise", "statement": "For a valid configuration (size_gen >= 2, 1 <= truncation_length, matching shapes, non-NaN costs of one numeric type, at least cpu_count individuals if parallelized; two variables for EMNA; string categories with a genuine distribution for UMDAcat) UMDAd, UMDAc, PBIL, UMDAcat and EMNA runs return a result instead of raising; so do EGNA, SPEDA and MultivariateKEDA if the Bayesian network library does not raise on data of the right shape.", "quantifier": "every valid configuration, cost function and draws", "why_tests_cant": "all runs", "anchors": ["EDAspy/optimization/eda.py:EDA.minimize", "EDAspy/optimization/univariate"]}
{"id": "C54", "title": "costs are stored as returned", "statement": "The recorded evaluations (and hence history and best_cost) are exactly the values returned by the cost function, even if it returns integers for some individuals and floats for others.", "quantifier": "every mixture of int and float return values", "why_tests_cant": "the stored type is decided by the first individual of each generation (or of each parallel chunk)", "anchors": ["EDAspy/optimization/eda.py:EDA._check_generation_no_parallel", "EDAspy/optimization/utils.py:_parallel_apply_along_axis"]}
{"id": "C55", "title": "Gaussian models sample with the stored mean and covariance", "statement": "Individuals sampled by UniGauss have mean pm[0], standard deviation pm[1] and uncorrelated coordinates; individuals sampled by MultiGauss have mean pm_means and covariance pm_cov.", "quantifier": "every stored mean, deviation and covariance, in particular every covariance that learn can produce", "why_tests_cant": "a distributional statement; sample moments only approximate it, and it must hold for every stored matrix", "anchors": ["EDAspy/optimization/custom/probabilistic_models/univariate_gaussian.py:UniGauss.sample", "EDAspy/optimization/custom/probabilistic_models/multivariate_gaussian.py:MultiGauss.sample"]}
{"id": "C56", "title": "EBNA and BOA never leave the declared categories", "statement": "Every value of every individual evaluated by EBNA or BOA belongs to the possible_values of its variable (or to init_data); if the elite is not larger than the selection, a category absent from the selected individuals never reappears.", "quantifier": "every Bayesian network library whose simulations only use values of the training data, every cost function, random draws, number of iterations", "why_tests_cant": "an invariant over all runs", "anchors": ["EDAspy/optimization/multivariate/ebna.py:EBNA", "EDAspy/optimization/multivariate/boa.py:BOA", "EDAspy/optimization/custom/probabilistic_models/discrete_bayesian_network.py:BN"]}
{"id": "C57", "title": "GBN.inference returns the posterior of the network", "statement": "inference(evidence, names) returns the mean and the covariance of the remaining variables given the evidence in the linear Gaussian network described by the learned CPDs; in particular the returned covariance is positive semidefinite.", "quantifier": "every acyclic network, coefficients, evidence and split of the variables", "why_tests_cant": "a distributional statement over all networks; it only fails for nodes with correlated parents", "anchors": ["EDAspy/optimization/custom/probabilistic_models/gaussian_bayesian_network.py:GBN.inference", "EDAspy/optimization/custom/probabilistic_models/gaussian_bayesian_network.py:GBN.get_sigma"]}
{"id": "C58", "title": "UniKDE samples each variable independently", "statement": "UniKDE estimates one kernel density per variable: the variables of a sampled individual are uncorrelated, whatever the correlation of the variables in the dataset it learned from.", "quantifier": "every dataset, bandwidth and number of variables", "why_tests_cant": "a distributional statement over all datasets; correlations are invisible in single samples", "anchors": ["EDAspy/optimization/custom/probabilistic_models/univariate_kde.py:UniKDE.learn", "EDAspy/optimization/custom/probabilistic_models/univariate_kde.py:UniKDE.sample"]}
{"id": "C59", "title": "w_noise has no effect in the archive-based algorithms", "statement": "Although documented as noise added to each generation, w_noise does not influence SPEDA and MultivariateKEDA: a run that returns gives the same result and the same calls of the cost function with w_noise=None.", "quantifier": "every configuration, cost function and noise draws", "why_tests_cant": "the noise is drawn and added, but to an array that is not used; no single run shows it", "anchors": ["EDAspy/optimization/multivariate/speda.py:SPEDA._update_pm", "EDAspy/optimization/multivariate/keda.py:MultivariateKEDA._update_pm", "EDAspy/optimization/eda.py:EDA.minimize"]}
{"id": "C60", "title": "UnivariateKEDA runs never raise", "statement": "For a valid configuration (at least two selected individuals, matching shapes, non-NaN costs) a run of UnivariateKEDA returns a result instead of raising.", "quantifier": "every valid configuration, cost function and draws", "why_tests_cant": "it fails when the covariance of the selected individuals is singular, e.g. whenever not more individuals are selected than there are variables", "anchors": ["EDAspy/optimization/univariate/keda.py:UnivariateKEDA", "EDAspy/optimization/custom/probabilistic_models/univariate_kde.py:UniKDE.learn"]}
{"id": "C61", "title": "a missing bound is reported before anything is evaluated", "statement": "An object of EMNA, EGNA, SPEDA, MultivariateKEDA, UnivariateKEDA, or of UMDAc or PBIL without vector, constructed with a bound None (the default) and without init_data, raises in minimize before the first evaluation, whatever the cost function; with init_data the bounds (and vector) have no influence on the run.", "quantifier": "every configuration, cost function and draws", "why_tests_cant": "all configurations and cost functions", "anchors": ["EDAspy/optimization/custom/initialization_models/uniform_geninit.py:UniformGenInit.sample", "EDAspy/optimization/eda.py:EDA._initialize_generation"]}
{"id": "C62", "title": "only the order of the costs matters", "statement": "Replacing the cost function f by g(f) with a strictly increasing g does not change the search: the same individuals are evaluated in the same order, the same best individual is returned (or the same exception raised), and best cost and history are transformed by g.", "quantifier": "every algorithm, cost function, strictly increasing transformation, draws, and machine whose sort only compares", "why_tests_cant": "quantifies over all transformations; it depends on every comparison made in the run", "anchors": ["EDAspy/optimization/eda.py:EDA.minimize", "EDAspy/optimization/eda.py:EDA._truncation"]}
{"id": "C63", "title": "a longer run extends a shorter one", "statement": "Raising max_iter, or making dead_iter more patient (larger, or 0, which never stops), only extends a run with the same random draws: an exception of the shorter run also ends the longer one, the history and the calls of the cost function of the shorter run are the beginning of those of the longer one, a run stopped by dead_iter does not change at all with a larger max_iter, and with ftol=0 the longer run never reports a worse cost.", "quantifier": "every algorithm, cost function, limits and draws", "why_tests_cant": "compares two runs for all configurations and all pairs of limits", "anchors": ["EDAspy/optimization/eda.py:EDA.minimize", "EDAspy/optimization/eda.py:EDA.__init__"]}
{"id": "C64", "title": "UMDAd with strict bounds finds the optimum with probability tending to 1", "statement": "For 0 < lower_bound < upper_bound < 1 and independent uniform draws, the probability that UMDAd evaluates at least T generations without ever evaluating a given binary string is at most (1-q^n)^((T-1)*size_gen) with q = min(lower_bound, 1-upper_bound); with early stopping disabled (dead_iter=0) and ftol=0 the probability that minimize does not return the minimum of the cost function over all binary strings tends to 0 as max_iter grows.", "quantifier": "every cost function, size_gen >= 1, number of variables, bounds, selection and elite size, and every sort", "why_tests_cant": "a statement about probabilities in the limit, for all cost functions", "anchors": ["EDAspy/optimization/univariate/umda_binary.py:UMDAd", "EDAspy/optimization/custom/probabilistic_models/univariate_binary.py:UniBin.sample", "EDAspy/optimization/custom/probabilistic_models/univariate_binary.py:UniBin.learn", "EDAspy/optimization/eda.py:EDA.minimize"]}
{"id": "C65", "title": "what minimize prints", "statement": "With output_runtime=True minimize prints one line for each generation, in order, with its number and the best cost found so far; only when the run is stopped by dead_iter the line of the last generation is missing. With disp=True two more lines report n_fev, best_cost and best_ind of the result. Printing never changes the result, and a run that raises has printed no final report.", "quantifier": "every algorithm, cost function, limits and draws, including runs that raise", "why_tests_cant": "relates the printed lines to the whole history for all runs", "anchors": ["EDAspy/optimization/eda.py:EDA.minimize"]}
{"id": "C66", "title": "an exception of the cost function ends the run", "statement": "If a call of the cost function raises, minimize raises as well and evaluates no further generation; without parallelize the raising call is the last one made and minimize raises the same exception. If all calls made return, the run is that of a cost function that always returns.", "quantifier": "every algorithm, every cost function that raises on some calls, sequential and parallel evaluation, any schedule of the workers", "why_tests_cant": "quantifies over all ways in which a cost function can fail and all schedules", "anchors": ["EDAspy/optimization/eda.py:EDA.minimize", "EDAspy/optimization/eda.py:EDA._check_generation_no_parallel", "EDAspy/optimization/eda.py:EDA._check_generation_parallel", "EDAspy/optimization/utils.py:_parallel_apply_along_axis"]}
{"id": "C67", "title": "plot_bn draws the network", "statement": "plot_bn draws every variable once and every arc once, as an arrow between the places of its variables; with computed positions the variables are in the order of var_names and no two share a place; with given positions every variable is at its given place. It raises if a variable that occurs has no position (an arc with an unlisted variable) or, without positions, if there are no variables; an empty dictionary of positions is treated as None. The figure has the given title and is saved to the given file, neither if it is None or empty.", "quantifier": "all lists of variables and arcs, all positions", "why_tests_cant": "all graphs, including repeated arcs and unlisted variables", "anchors": ["EDAspy/optimization/tools.py:plot_bn", "EDAspy/optimization/tools.py:_set_positions"]}
{"id": "C68", "title": "the search does not depend on the origin", "statement": "Translating the search space (the bounds, the initial means or initial data, and the cost function, all by the same vector) translates a run of UMDAc, PBIL and EMNA: with the same random draws every evaluated individual, the best individual and the returned history are the translated ones, and the same exceptions are raised.", "quantifier": "every cost function, translation, configuration (bounds as numbers, lists or arrays; initial data; noise) and draws; exact arithmetic", "why_tests_cant": "compares two whole runs for all translations and all draws", "anchors": ["EDAspy/optimization/univariate/umda_continuous.py:UMDAc", "EDAspy/optimization/univariate/pbil.py:PBIL", "EDAspy/optimization/multivariate/emna.py:EMNA", "EDAspy/optimization/eda.py:EDA.minimize"]}
{"id": "C69", "title": "the search does not depend on the units", "statement": "Measuring all variables in other units (bounds, initial means and deviations, initial data, minimal deviation, noise and cost function rescaled by the same positive factor) changes a run of UMDAc, PBIL and EMNA only by these units.", "quantifier": "every cost function, positive factor, configuration and draws; exact arithmetic", "why_tests_cant": "compares two whole runs for all factors and all draws", "anchors": ["EDAspy/optimization/univariate/umda_continuous.py:UMDAc", "EDAspy/optimization/univariate/pbil.py:PBIL", "EDAspy/optimization/multivariate/emna.py:EMNA", "EDAspy/optimization/eda.py:EDA.minimize"]}
{"id": "C70", "title": "variables do not influence each other in the univariate algorithms", "statement": "In UMDAd, UMDAc and PBIL each variable of a run depends only on its own bounds, initial values and draws and on which individuals are selected: reordering or duplicating the variables, or leaving out variables the cost function does not read, gives a run in which every remaining variable takes exactly the same values.", "quantifier": "every cost function, renumbering of the variables, configuration, draws and every rounding of the arithmetic", "why_tests_cant": "compares two whole runs for all renumberings and all draws", "anchors": ["EDAspy/optimization/univariate/umda_binary.py:UMDAd", "EDAspy/optimization/univariate/umda_continuous.py:UMDAc", "EDAspy/optimization/univariate/pbil.py:PBIL", "EDAspy/optimization/eda.py:EDA.minimize"]}
{"id": "C71", "title": "columns stay with their variables", "statement": "The Bayesian networks identify columns by variable name: column j of the data passed to learn is taken as variable variables[j], nothing of an earlier learn is left, and column j of a sample is the value of variables[j] whatever order the library uses internally (KeyError if the library returns no such column). Hence the internal column order of the library has no effect on runs of EGNA, SPEDA, MultivariateKEDA, EBNA and BOA, and listing the variables of a BN together with their columns in another order gives the same network and the same samples in that order. BN.learn raises ValueError if the arcs found by the search contain a directed cycle.", "quantifier": "every library meeting the stated contract, all variables, data, draws and runs", "why_tests_cant": "all orders of the columns and all libraries", "anchors": ["EDAspy/optimization/custom/probabilistic_models/discrete_bayesian_network.py:BN", "EDAspy/optimization/custom/probabilistic_models/gaussian_bayesian_network.py:GBN", "EDAspy/optimization/custom/probabilistic_models/semiparametric_bayesian_network.py:SPBN", "EDAspy/optimization/custom/probabilistic_models/kde_bayesian_network.py:KDEBN"]}
{"id": "C72", "title": "each network algorithm searches its own class of structures", "statement": "EGNA searches Gaussian networks, SPEDA semiparametric networks by changing arcs and node types from the empty network, MultivariateKEDA kernel density networks by changing arcs from the empty network, all with the given black and white lists and 10 folds; EBNA searches with the BIC score and BOA with the BDeu score. The result of a run depends on no other answer of the structure search.", "quantifier": "every configuration, library, cost function and draws", "why_tests_cant": "quantifies over all answers of the structure search", "anchors": ["EDAspy/optimization/multivariate/egna.py:EGNA", "EDAspy/optimization/multivariate/speda.py:SPEDA", "EDAspy/optimization/multivariate/keda.py:MultivariateKEDA", "EDAspy/optimization/multivariate/ebna.py:EBNA", "EDAspy/optimization/multivariate/boa.py:BOA"]}
{"id": "C73", "title": "cost functions that change the array they receive", "statement": "If the cost function writes into the array it receives, then without parallelize the change stays: the population, the elite, the learned model and best_ind are the individuals as the cost function left them, and the array passed as init_data is overwritten in the same way; in particular a cost function that repairs individuals in place gives the run of the algorithm whose samples are repaired. With parallelize the change is lost: the run is that of a cost function working on a copy, so the two modes can report different results.", "quantifier": "every algorithm, cost function (value and change may depend on the call), configuration and draws", "why_tests_cant": "compares whole runs for all cost functions with side effects on their argument, in both modes", "anchors": ["EDAspy/optimization/eda.py:EDA._check_generation_no_parallel", "EDAspy/optimization/eda.py:EDA._check_generation_parallel", "EDAspy/optimization/eda.py:EDA._initialize_generation_with_data", "EDAspy/optimization/utils.py:_parallel_apply_along_axis"]}
{"id": "C74", "title": "probability laws of the sampled generations", "statement": "If the underlying random numbers are independent and exactly uniform on [0,1) or standard normal, then with probability 1 sample succeeds, and: UniBin gives independent bits, bit j being 1 with probability pm[j], so a given generation has the product of the probabilities of its bits; UniGauss and AdaptUniGauss give independent normal values with mean pm[0,j] and standard deviation pm[1,j]; UniCategorical and CategoricalSampling give independent values, each with its frequency; UniformGenInit gives independent values uniform between the bounds; MultiGauss gives independent individuals with the multivariate normal law with mean pm_means and covariance pm_cov whenever that matrix is positive semidefinite; UniKDE gives independent individuals, each normal around a uniformly chosen selected individual. Consequently the next generation of UMDAd, UMDAc, UMDAcat and UnivariateKEDA has the law described by the selected individuals: clipped fraction of ones, normal with the (floored) sample deviation, uniform choice among the selected values, kernel density estimate.", "quantifier": "every model state, every selection, every generation size, every probability space carrying such draws", "why_tests_cant": "an equality of probability measures; tests can only compare histograms", "anchors": ["EDAspy/optimization/custom/probabilistic_models/univariate_binary.py:UniBin.sample", "EDAspy/optimization/custom/probabilistic_models/univariate_gaussian.py:UniGauss.sample", "EDAspy/optimization/custom/probabilistic_models/univariate_categorical.py:UniCategorical.sample", "EDAspy/optimization/custom/probabilistic_models/multivariate_gaussian.py:MultiGauss.sample", "EDAspy/optimization/custom/probabilistic_models/univariate_kde.py:UniKDE.sample", "EDAspy/optimization/custom/initialization_models/uniform_geninit.py:UniformGenInit.sample", "EDAspy/optimization/custom/initialization_models/categorical_geninit.py:CategoricalSampling.sample"]}
{"id": "C75", "title": "UMDAd with bounds (0,1), and UMDAcat, may never find the optimum", "statement": "UMDAd with lower_bound=0 and upper_bound=1 (the documented way to switch the bounds off), and UMDAcat always: a run whose first generation consists of copies of one individual evaluates nothing else, whatever the cost function and the elite. Hence, if the draws of the first generation are independent and uniform, then for every non-constant cost function minimize returns a value different from the minimum with probability at least 2^-(n_variables*size_gen) (UMDAd without vector; with vector, or for UMDAcat, the product of the probabilities of the values of the individual to the power size_gen), for every max_iter: the probability of failure does not tend to 0.", "quantifier": "every cost function, number of iterations, elite and distribution of the later draws", "why_tests_cant": "a lower bound for a small probability, uniform in max_iter; a test cannot observe a limit", "anchors": ["EDAspy/optimization/eda.py:EDA.minimize", "EDAspy/optimization/univariate/umda_binary.py:UMDAd", "EDAspy/optimization/univariate/umda_categorical.py:UMDAcat", "EDAspy/optimization/custom/probabilistic_models/univariate_binary.py:UniBin.learn"]}
{"id": "C76", "title": "UMDAc and PBIL leave every bounded region", "statement": "The bounds of UMDAc and PBIL only shape the first generation. If lower_factor > 0 and size_gen >= 2, then whatever the cost function and the bounds, a generation (after the first) in which the draws of variable j lie on both sides of +-(u-l)/(2*lower_factor) contains an individual whose variable j is outside of [l,u]. Hence with independent draws the probability that T generations are evaluated without leaving [l,u] is at most q^(T-1) with q < 1 depending only on (u-l)/lower_factor, and with standard normal draws the probability that a run with dead_iter = 0 evaluates an individual outside of [l,u] tends to 1 as max_iter grows, for every l and u.", "quantifier": "every cost function, bounds, interval, first generation and noise; all distributions of the draws for the rate", "why_tests_cant": "a limit of probabilities for all cost functions and all intervals", "anchors": ["EDAspy/optimization/univariate/umda_continuous.py:UMDAc", "EDAspy/optimization/univariate/pbil.py:PBIL", "EDAspy/optimization/custom/probabilistic_models/univariate_gaussian.py:UniGauss.learn", "EDAspy/optimization/custom/probabilistic_models/adaptive_univariate_gaussian.py:AdaptUniGauss.learn"]}
{"id": "C77", "title": "On linear costs a generation is expected to be as good as the selected individuals", "statement": "Let the cost be a sum of functions of the single variables (UMDAd, UMDAcat) or a linear function (UMDAc, PBIL with learning rate >= 0, EMNA, UnivariateKEDA; without white noise). Given everything drawn before, the expected mean cost of the last generation is at most the mean of the truncation_length lowest costs of the generation before, hence at most the mean cost of that generation; the run reaches that generation with probability 1. For UMDAd with bounds and rounded frequencies the excess is at most max(lower_bound, 1-upper_bound, rounding error) times the sum over the variables of |g_j(1)-g_j(0)|. This does not depend on the deviations, the minimal deviation, the bandwidth or the singular value decomposition.", "quantifier": "every such cost function, all earlier draws, elites, sizes and numbers of iterations; all constructor arguments otherwise", "why_tests_cant": "an expectation over continuous distributions, for all cost functions of a class and all histories", "anchors": ["EDAspy/optimization/eda.py:EDA.minimize", "EDAspy/optimization/eda.py:EDA._truncation", "EDAspy/optimization/custom/probabilistic_models/univariate_binary.py:UniBin.learn", "EDAspy/optimization/custom/probabilistic_models/univariate_categorical.py:UniCategorical.learn", "EDAspy/optimization/custom/probabilistic_models/univariate_gaussian.py:UniGauss.learn", "EDAspy/optimization/custom/probabilistic_models/adaptive_univariate_gaussian.py:AdaptUniGauss.learn", "EDAspy/optimization/custom/probabilistic_models/multivariate_gaussian.py:MultiGauss.learn", "EDAspy/optimization/custom/probabilistic_models/univariate_kde.py:UniKDE.learn"]}
{"id": "C78", "title": "cec14_k computes problem k of the CEC 2014 suite", "statement": "For every accepted dimension d > 1 and every point x with d coordinates, cec14_k(x) equals problem k of the CEC 2014 suite: the named function (high conditioned elliptic, bent cigar, discus, Rosenbrock, Ackley, Weierstrass, Griewank, Rastrigin, modified Schwefel, Katsuura, HappyCat, HGBat, expanded Scaffer) of M_k * (c_k * (x - o_k)) (plus 1 for problems 4 and 16; no rotation for 8 and 10), plus 100 k, where o_k are the first d numbers of shift_data_k.txt, M_k is M_k_Dd.txt read row by row and c_k is the scale of the suite. A point with another number of coordinates is rejected.", "quantifier": "all points, all contents of the data files with the shipped shapes, every accepted dimension", "why_tests_cant": "real-valued functions at all points and for all rotation and shift data", "anchors": ["EDAspy/benchmarks/continuous.py:ContinuousBenchmarkingCEC14._load_shift", "EDAspy/benchmarks/continuous.py:ContinuousBenchmarkingCEC14._load_rot", "EDAspy/benchmarks/continuous.py:ContinuousBenchmarkingCEC14.cec14_1", "EDAspy/benchmarks/continuous.py:ContinuousBenchmarkingCEC14.cec14_16"]}
{"id": "C79", "title": "UMDAd without bounds and UMDAcat end with copies of one individual", "statement": "Let UMDAd have the probability bounds 0 and 1 (or take UMDAcat), select at least one and at most size_gen individuals, and let different individuals have different costs or argsort be stable. The probability that a run evaluates more than T generations and the generations from number T on are not all copies of one individual is at most (1 - q^(n_variables*size_gen))^T, where q is 1/truncation_length (for UMDAd: less the rounding error of the learned frequencies, 2^-54 in double precision). So for every eps > 0 there is a T such that every run with dead_iter = 0 and max_iter > T returns and has, with probability at least 1 - eps, only copies of one individual from generation T on. If the elite is not empty, this individual is the best one evaluated in the run.", "quantifier": "all cost functions without ties (all cost functions if argsort is stable), constructor arguments, binary or legal first generations, numbers of iterations, eps > 0", "why_tests_cant": "a limit of probabilities of runs; no test can observe all generations", "anchors": ["EDAspy/optimization/eda.py:EDA.minimize", "EDAspy/optimization/eda.py:EDA._truncation", "EDAspy/optimization/univariate/umda_binary.py:UMDAd.__init__", "EDAspy/optimization/univariate/umda_categorical.py:UMDAcat.__init__", "EDAspy/optimization/custom/probabilistic_models/univariate_binary.py:UniBin.learn", "EDAspy/optimization/custom/probabilistic_models/univariate_categorical.py:UniCategorical.learn"]}
{"id": "C80", "title": "White noise averages out over the iterations of a run", "statement": "With w_noise = w > 0 UMDAc, PBIL and EMNA learn from the selected individuals plus normal numbers with mean 0 and deviation w. The noise should not bias the search: over the iterations of a run the learned mean of each variable should be the mean of the selected individuals on average, with independent errors. (False: the noise matrix is drawn once per run, so the error is the same number in every iteration. For UMDAc and EMNA it is the mean of the column of the noise matrix, normal with mean 0 and variance w^2/truncation_length over different runs; with probability 1 it is not 0, and the new individuals of UMDAc are centred at the shifted mean in every iteration.)", "quantifier": "all cost functions, constructor arguments with w_noise > 0, initial data, iterations, random numbers; for the law of the error: all noise matrices of independent normal numbers", "why_tests_cant": "a statement about the errors of all iterations and their probability; a test sees the runs it makes", "anchors": ["EDAspy/optimization/eda.py:EDA.minimize", "EDAspy/optimization/univariate/umda_continuous.py:UMDAc.__init__", "EDAspy/optimization/univariate/pbil.py:PBIL.__init__", "EDAspy/optimization/multivariate/emna.py:EMNA.__init__", "EDAspy/optimization/custom/probabilistic_models/univariate_gaussian.py:UniGauss.learn"]}
{"id": "C81", "title": "The Gaussian models of UMDAc and PBIL stay accurate and safe in double precision", "statement": "With every arithmetic operation rounded to IEEE double precision: the mean that UniGauss.learn stores differs from the exact mean of the data by at most ((1+2^-53)^(d+1)-1) times the mean absolute value plus 2^-1075, where d is the depth of the order of the additions (for numpy's pairwise summation of up to 112*2^20+16 rows: by at most 2^-47 of the mean absolute value), the number whose rounded root is the deviation is as close to the variance plus the squared error of the mean, and no deviation is below lower_bound; the same for the adaptive model of PBIL; a sampled value differs from mean+std*z by two roundings. Runs of UMDAc and PBIL with valid arguments never raise and handle only doubles, and the bounds hold in every iteration. (The learned mean can leave the range of the values: the mean of three times 0.1 is greater than 0.1.)", "quantifier": "all data of doubles, orders of the additions, lower bounds, learning rates, random numbers, constructor arguments, cost functions, iterations", "why_tests_cant": "a bound on the rounding errors of all data; tests compare with a reference that is itself rounded", "anchors": ["EDAspy/optimization/custom/probabilistic_models/univariate_gaussian.py:UniGauss.learn", "EDAspy/optimization/custom/probabilistic_models/univariate_gaussian.py:UniGauss.sample", "EDAspy/optimization/custom/probabilistic_models/adaptive_univariate_gaussian.py:AdaptUniGauss.learn", "EDAspy/optimization/univariate/umda_continuous.py:UMDAc.__init__", "EDAspy/optimization/univariate/pbil.py:PBIL.__init__"]}
{"id": "C82", "title": "The categorical model of UMDAcat stays accurate and safe in double precision", "statement": "With every arithmetic operation rounded to IEEE double precision, those inside np.random.choice included: UniCategorical.learn stores for every observed value (and no other) the nearest double to its relative frequency; np.random.choice accepts these probabilities for up to 2^21 different values per variable (its compensated sum is within 2^-26 of 1), its cumulative distribution does not decrease and ends with exactly 1, so that every draw finds a value, and sample returns size rows of observed values; of the 2^53 possible draws the share that returns a value equals its relative frequency up to (k+2)*2^-50 for k different values, so no observed value is lost while rows*(k+2) < 2^50 (a declared category of frequency 2^-60 beside one of frequency 1 is accepted and can never be drawn). Construction and runs of UMDAcat with string categories, frequencies that are doubles and sum to 1 up to 2^-27, never raise.", "quantifier": "all columns, tables, probabilities, sizes, draws, constructor arguments, cost functions", "why_tests_cant": "the rounding errors of all data and the shares of all 2^53 draws cannot be enumerated", "anchors": ["EDAspy/optimization/custom/probabilistic_models/univariate_categorical.py:UniCategorical.learn", "EDAspy/optimization/custom/probabilistic_models/univariate_categorical.py:UniCategorical.sample", "EDAspy/optimization/custom/initialization_models/categorical_geninit.py:CategoricalSampling", "EDAspy/optimization/univariate/umda_categorical.py:UMDAcat"]}
{"id": "C83", "title": "The order of the individuals in init_data does not matter", "statement": "Two runs of the same algorithm whose init_data contain the same individuals in a different order, with the same draws and a deterministic cost function without ties, report the same history, best_cost, n_fev and learned model.", "quantifier": "every algorithm, every init_data and permutation of it, every cost function without ties on it, all draws, sequential and parallel evaluation", "why_tests_cant": "all permutations, cost functions and draws; a test would need two coupled runs", "anchors": ["EDAspy/optimization/eda.py:EDA.minimize", "EDAspy/optimization/eda.py:EDA._truncation"]}
{"id": "C84", "title": "Expected time until UMDAd finds an optimum", "statement": "UMDAd with 0 < lower_bound < upper_bound < 1 and independent uniform draws is expected to evaluate at most 1/(1-(1-q^n)^size_gen) generations before the first one that contains a given binary string (for instance an optimum), with q = min(lower_bound, 1-upper_bound) and n variables.", "quantifier": "every cost function, max_iter, dead_iter, selection size, initial generation, target string", "why_tests_cant": "an expectation over infinitely many draws, for every cost function", "anchors": ["EDAspy/optimization/univariate/umda_binary.py:UMDAd", "EDAspy/optimization/custom/probabilistic_models/univariate_binary.py:UniBin", "EDAspy/optimization/eda.py:EDA.minimize"]}
{"id": "C85", "title": "A variable that the cost function ignores is fixed by chance", "statement": "UMDAd with lower_bound <= 0, upper_bound >= 1, no elite and q selected individuals, on a cost function that ignores a variable, with independent uniform draws for this variable: the history does not depend on these draws; the expected probability of the variable in the final model is its value p after the first iteration; the expected P(1-P) shrinks by the factor 1-1/q per iteration; the variable can still take both values after N iterations with probability at most q(1-1/q)^(N-2) p(1-p); and it is fixed at 1 with probability p up to this bound.", "quantifier": "every cost function that ignores the variable, every max_iter, dead_iter, size_gen, alpha, init_data of bits, all draws of the other variables", "why_tests_cant": "an expectation over infinitely many draws; a test sees single runs in which the useless variable converges as if it mattered", "anchors": ["EDAspy/optimization/univariate/umda_binary.py:UMDAd", "EDAspy/optimization/custom/probabilistic_models/univariate_binary.py:UniBin", "EDAspy/optimization/eda.py:EDA.minimize"]}
{"id": "C86", "title": "print_structure tells which variables of the samples are independent", "statement": "For a trained probabilistic model, if print_structure() shows no common ancestor of two variables (a variable is an ancestor of itself and of everything reachable along the returned arcs), then the values of these two variables in an individual returned by sample() are statistically independent. In particular a model that returns an empty list samples all variables independently.", "quantifier": "all models, all parameters and training data, all sizes; probability over independent random draws", "why_tests_cant": "Independence is a property of the joint distribution of the samples; a test sees finitely many samples and no dependence test is exact.", "anchors": ["EDAspy/optimization/custom/probabilistic_models/univariate_binary.py:55-63", "EDAspy/optimization/custom/probabilistic_models/univariate_gaussian.py:50-58", "EDAspy/optimization/custom/probabilistic_models/adaptive_univariate_gaussian.py:60-68", "EDAspy/optimization/custom/probabilistic_models/univariate_kde.py:41-49", "EDAspy/optimization/custom/probabilistic_models/univariate_categorical.py:61-69", "EDAspy/optimization/custom/probabilistic_models/multivariate_gaussian.py:59-67", "EDAspy/optimization/custom/probabilistic_models/gaussian_bayesian_network.py:81-90"]}
{"id": "C87", "title": "UMDAd treats the two values of a bit alike", "statement": "Let lower_bound + upper_bound = 1. Take any set of variables and exchange the values 0 and 1 of these variables everywhere: in the cost function, in the initial probabilities (1 - p instead of p) and in the individuals of init_data. Then the result of minimize (best individual, best cost, number of evaluations, history) has the same probability distribution as before, with the values of these variables exchanged in the best individual. In particular, without a vector and without init_data, UMDAd finds every hidden string with the same distribution of the best cost, of the number of evaluations and of the history.", "quantifier": "all sets of variables, all cost functions (also ones that depend on the number of the call), all settings with lower_bound + upper_bound = 1, all initial probabilities, binary init_data, all sets of outcomes; probability over independent uniform draws", "why_tests_cant": "Equality of two probability distributions cannot be observed in finitely many runs, and for equal seeds the two runs are different.", "anchors": ["EDAspy/optimization/univariate/umda_binary.py:76-93", "EDAspy/optimization/custom/probabilistic_models/univariate_binary.py:22-53", "EDAspy/optimization/custom/initialization_models/uni_bin_geninit.py:12-40", "EDAspy/optimization/eda.py:148-222"]}
{"id": "C88", "title": "A run learns about the cost function only from the values it evaluates", "statement": "If two cost functions return the same values for all individuals that a run of minimize evaluates, then the run with the second cost function is the same: the same result, the same generations, the same model. The next individual to be evaluated depends on the cost function only through the values of the individuals evaluated before it. Consequently, if the cost is c1 everywhere except at one individual, a run with given random numbers finds this individual at no more places than it makes evaluations: for UMDAd at most n_fev of the 2^n_variables strings.", "quantifier": "all algorithms, all settings, all cost functions (also ones that depend on the number of the call), all random numbers, sequential and parallel evaluation", "why_tests_cant": "A test compares finitely many pairs of cost functions; the claim is about all of them and about all places of the needle.", "anchors": ["EDAspy/optimization/eda.py:93-122", "EDAspy/optimization/eda.py:148-222", "EDAspy/optimization/utils.py:8-44", "EDAspy/optimization/univariate/umda_binary.py:76-93"]}
{"id": "C89", "title": "No free lunch", "statement": "Consider all cost functions from a finite set X of individuals to a finite set Y of values. If a run of minimize evaluates at least m different individuals whatever the cost function, then each list of m values is the list of values of the first m different evaluated individuals for exactly |Y|^(|X|-m) cost functions. Hence two runs, of different algorithms or with different settings or random numbers, see every list of m values equally often: averaged over all cost functions no algorithm is better than another. Without the assumption the number is at most |Y|^(|X|-m).", "quantifier": "all algorithms, settings and random numbers, all finite sets of individuals and of values, all m", "why_tests_cant": "The statement averages over all |Y|^|X| cost functions.", "anchors": ["EDAspy/optimization/eda.py:93-122", "EDAspy/optimization/eda.py:148-222", "EDAspy/optimization/univariate/umda_binary.py:76-93"]}
{"id": "C90", "title": "EDACustom with the parts of a ready-made algorithm is that algorithm", "statement": "If pm and init of an EDACustom object are assigned the model and the initializer that UMDAc, PBIL, EMNA, EGNA or UnivariateKEDA would construct, and the other settings agree (for PBIL alpha=1 in EDACustom; parallelize, init_data and w_noise at their defaults), then minimize of the two objects with the same random numbers does the same: it raises the same exception or returns the same result, calls the cost function on the same individuals in the same order, and ends with the same generation, elite and model parameters. The constructor itself gives with init=4 and bounds=(lo, up): for pm=1 UMDAc with lower_factor=lo, for pm=3 EMNA with lower_factor=lo and upper_factor=up, for pm=4 EGNA without lists. It is different for UMDAd: EDACustom with its model and initializer raises in every run of at least two generations.", "quantifier": "all settings, bounds, cost functions, random numbers and library behaviours", "why_tests_cant": "A test compares finitely many seeded runs of finitely many configurations.", "anchors": ["EDAspy/optimization/custom/eda_custom.py:46-105", "EDAspy/optimization/eda.py:24-78", "EDAspy/optimization/univariate/umda_continuous.py:92-106", "EDAspy/optimization/univariate/pbil.py:91-108", "EDAspy/optimization/multivariate/emna.py:83-91", "EDAspy/optimization/multivariate/egna.py:83-90", "EDAspy/optimization/univariate/keda.py:77-84", "EDAspy/optimization/univariate/umda_binary.py:76-93"]}
{"id": "C91", "title": "Benchmark functions at points of another dimension", "statement": "Of an object with dimension d, the methods bent_cigar_function, discuss_function, rosenbrock_function, ackley_function, weierstrass_function, griewank_function, katsuura_function, happycat_function, hgbat_function and expanded_scaffer_f6_function raise IndexError at every point with fewer than d coordinates (rosenbrock_function only if d > 1) and ignore the coordinates after the d-th of a longer point: they return the value at the first d coordinates. rastrigins_function, high_conditioned_elliptic_function and mod_schwefels_function take the dimension from the point and accept every length (the elliptic function not length 1).", "quantifier": "all points and all dimensions", "why_tests_cant": "All lengths and all values of the coordinates.", "anchors": ["EDAspy/benchmarks/continuous.py:ContinuousBenchmarkingCEC14"]}
{"id": "C92", "title": "maximum_a_posteriori of a Gaussian network maximises its density", "statement": "For a learned GBN with positive variances, maximum_a_posteriori(evidence, var_names) returns the values of the remaining variables (in the order in which inference iterates over them) for which the density of the network, the product of the normal densities of its nodes whose logarithm logl returns, is largest among all points with the given evidence; every other value of the remaining variables has a smaller density.", "quantifier": "all linear Gaussian networks, all sets of evidence variables, all evidence values", "why_tests_cant": "The maximum is over all real values of the remaining variables and the statement is about all networks.", "anchors": ["EDAspy/optimization/custom/probabilistic_models/gaussian_bayesian_network.py:230-235", "EDAspy/optimization/custom/probabilistic_models/gaussian_bayesian_network.py:199-228", "EDAspy/optimization/custom/probabilistic_models/gaussian_bayesian_network.py:114-122"]}
{"id": "C93", "title": "UMDAcat does not depend on the names of the categories", "statement": "Rename the categories of each variable (in possible_values, in init_data and in the arguments of the cost function), keeping different categories different. If the new names are in the same alphabetical order then UMDAcat.minimize with the same random numbers makes the same run up to the names: the same best_cost, n_fev and history, the renamed best_ind and the renamed evaluated individuals, or the same exception. For an arbitrary injective renaming the same holds in law: every event about the result and the evaluated individuals has the same probability as the renamed event. A single run may change when the order of the names changes.", "quantifier": "all configurations of UMDAcat, all renamings of the categories of each variable, all cost functions, all events about the result; all sequences of random numbers for order preserving renamings", "why_tests_cant": "The statement compares two probability laws over all infinite sequences of random numbers, for all renamings; runs that differ one by one have equal laws.", "anchors": ["EDAspy/optimization/univariate/umda_categorical.py:UMDAcat", "EDAspy/optimization/custom/probabilistic_models/univariate_categorical.py:UniCategorical.learn", "EDAspy/optimization/custom/probabilistic_models/univariate_categorical.py:UniCategorical.sample", "EDAspy/optimization/custom/initialization_models/categorical_geninit.py:CategoricalSampling.sample", "EDAspy/optimization/eda.py:EDA.minimize"]}
{"id": "C94", "title": "The constructors reject wrong calls and fill in the defaults", "statement": "A call Algorithm(**kwargs) without one of the required arguments (size_gen, max_iter, dead_iter, n_variables; possible_values and frequency for UMDAcat, EBNA and BOA; lower_bound and upper_bound for UnivariateKEDA), or with a keyword that is not a parameter, raises TypeError; dead_iter > max_iter raises AssertionError; a list or array of bounds whose length is not n_variables raises AssertionError. In a call that succeeds every parameter has the given value or its default.", "quantifier": "all eleven algorithms, all dictionaries of keyword arguments", "why_tests_cant": "The dictionaries of keyword arguments are infinitely many; the claim covers all combinations of missing, superfluous and wrong arguments.", "anchors": ["EDAspy/optimization/eda.py:EDA.__init__", "EDAspy/optimization/custom/initialization_models/uniform_geninit.py:UniformGenInit.__init__", "EDAspy/optimization/univariate", "EDAspy/optimization/multivariate"]}
{"id": "C95", "title": "A model learned from its own samples is the model the samples came from", "statement": "With probability 1, as the number of individuals grows, a model learned from individuals that it sampled itself tends to the model it was: for UniBin (probabilities within its bounds) every learned probability tends to the probability of the model, for UniGauss (deviations not below lower_bound) every learned mean and standard deviation to that of the model, for UniCategorical the learned probability of every value of every variable to that of the model, and for MultiGauss every learned mean and covariance to that of the model (covariances within [lower_factor, upper_factor]); sample and learn raise nothing.", "quantifier": "all models whose parameters are within the bounds that learn enforces, all numbers of variables, all probability spaces with independent uniform or standard normal draws", "why_tests_cant": "The statement is about the limit of infinitely many individuals and holds for almost every outcome of the random numbers; a test sees one finite sample and cannot separate a wrong limit from sampling error.", "anchors": ["EDAspy/optimization/custom/probabilistic_models/univariate_binary.py", "EDAspy/optimization/custom/probabilistic_models/univariate_gaussian.py", "EDAspy/optimization/custom/probabilistic_models/univariate_categorical.py", "EDAspy/optimization/custom/probabilistic_models/multivariate_gaussian.py"]}
{"id": "C96", "title": "UMDAc and PBIL converge to the global minimum of a continuous cost function when the elite is as large as the selection", "statement": "Let the cost function of `UMDAc` be continuous with bounded level sets (it grows beyond all limits with the norm), `lower_factor > 0`, `int(size_gen * elite_factor) >= int(size_gen * alpha)`, the first generation have at least as many rows as are selected, the standard normal draws of the generations be independent, `dead_iter = 0`, and the argsort decide by comparisons only. Then for every eps > 0 there is a q > 0 such that for every `max_iter` k the constructor accepts the arguments and the probability that `minimize` does not return with an entry of `history` within eps of the global minimum (and, for `ftol = 0`, with `best_cost` within eps of it) is at most (1 - q)^(k - 1), so it tends to 0 as `max_iter` grows; whatever the first generation, the white noise and the bounds are. The same holds for `PBIL` with `int(size_gen * elite_factor) >= size_gen`. More generally (measurable cost function with bounded level sets), an individual within any distance of any given point is evaluated with probability tending to 1. Without any condition on the elite and on the cost function, as soon as `max_iter >= 2`, an individual within any distance of any given point is evaluated with positive probability.", "quantifier": "for all configurations with lower_factor > 0 and an elite at least as large as the selection, all continuous cost functions with bounded level sets, all numbers of variables, all first generations and noise matrices, all comparison sorts, all eps > 0; the probability is over independent standard normal draws", "why_tests_cant": "convergence in probability is a statement about the limit over infinitely long runs and about a set of random draws of full measure; a test sees finitely many runs and cannot distinguish slow convergence from no convergence", "anchors": ["EDAspy/optimization/univariate/umda_continuous.py:92-106", "EDAspy/optimization/univariate/pbil.py:91-108", "EDAspy/optimization/custom/probabilistic_models/univariate_gaussian.py:16-48", "EDAspy/optimization/custom/probabilistic_models/adaptive_univariate_gaussian.py:24-58", "EDAspy/optimization/eda.py:93-209"]}
{"id": "C97", "title": "The search does not depend on the direction of the axes", "statement": "Reversing some of the axes (x_j becomes -x_j in the cost function and in init_data; the two bounds of such a variable are negated and change places; the initial means of vector are negated, all deviations, lower_factor and w_noise stay) gives the mirror image of the search: with independent draws (uniform or normal in the initializer, normal noise and normal samples) every set of outcomes (individuals evaluated call by call, costs, history, best individual, number of evaluations, exceptions) has the same probability as for the mirrored original run, for UMDAc, PBIL and EMNA.", "quantifier": "for all cost functions, starting points (bounds, vector or init_data), configurations, subsets of the axes, and sets of outcomes", "why_tests_cant": "It compares the distributions of two infinite families of runs, for all cost functions; a test compares a few seeds, and the mirrored run with the same seed is not the mirror image because the generator does not mirror its numbers.", "anchors": ["EDAspy/optimization/univariate/umda_continuous.py:92-106", "EDAspy/optimization/univariate/pbil.py:91-108", "EDAspy/optimization/multivariate/emna.py:83-91", "EDAspy/optimization/custom/probabilistic_models/univariate_gaussian.py:24-48", "EDAspy/optimization/custom/probabilistic_models/adaptive_univariate_gaussian.py:31-58", "EDAspy/optimization/custom/probabilistic_models/multivariate_gaussian.py:32-57", "EDAspy/optimization/custom/initialization_models/uniform_geninit.py:41-50", "EDAspy/optimization/eda.py:163-222"]}
{"id": "C98", "title": "A variable without influence loses its spread in UMDAc and PBIL", "statement": "Run UMDAc or PBIL without elite (elite_factor 0) and without white noise on a cost function that ignores variable j, and fix all random numbers except those from which variable j is sampled, which are independent standard normal numbers. All these runs return, with the same history. With m and d the mean and deviation of variable j in the model after the first iteration, and q the number of selected individuals (all of them in PBIL), after T iterations the expectation of the mean is still m and that of the squared deviation lies between (1-1/q)^(T-1) d^2 and this plus q lower_factor^2 (nothing is added if lower_factor <= 0), so the probability that the deviation is at least eps is at most that bound over eps^2. If lower_factor <= 0 the variance of the final mean is (1-(1-1/q)^(T-1)) d^2 for UMDAc, and (1+(3q-1) alpha^2) times as much for PBIL: the variable freezes at a random place though the cost function gives no reason for it.", "quantifier": "for all cost functions that ignore variable j, starting points, sizes, numbers of iterations, values of lower_factor and alpha, and all values of the other random numbers", "why_tests_cant": "It is a statement about expectations over infinitely many runs for all cost functions; a test sees single runs, in which the deviation may grow as well as shrink.", "anchors": ["EDAspy/optimization/univariate/umda_continuous.py:92-106", "EDAspy/optimization/univariate/pbil.py:91-108", "EDAspy/optimization/custom/probabilistic_models/univariate_gaussian.py:24-48", "EDAspy/optimization/custom/probabilistic_models/adaptive_univariate_gaussian.py:31-58", "EDAspy/optimization/eda.py:105-116", "EDAspy/optimization/eda.py:163-222"]}
{"id": "C99", "title": "Without elite and lower bound for the deviation, UMDAc on slopes and PBIL stay near their first generation for ever", "statement": "Run UMDAc or PBIL with elite_factor 0, lower_factor <= 0 and without white noise, and let all values of variable j in the first generation be at most B away from a number c. UMDAc is run on a slope (a cost that is a strictly increasing function of a weighted sum of the variables; it need not have a minimum), PBIL on any measurable cost function. Then, with the random numbers of the sampling independent and standard normal, the probability that any run, whatever its max_iter and dead_iter, ever evaluates an individual with variable j at a distance K B + R or more from c is at most 2 q N K B / R, where N is size_gen, q the number of selected individuals (N in PBIL), and K is 1 in UMDAc and |1-alpha| + 3 |alpha| in PBIL. The generation sampled after t+1 iterations contains two individuals that differ by eps or more in variable j with probability at most 2 N (sqrt(1-1/q))^t B / eps. So (if the cost function is bounded on boxes) for every eta > 0 there is a number L such that with probability at least 1 - eta no run, however long, ever reaches a cost below L, though the cost function may be unbounded below. (If lower_factor is positive the opposite holds: every point is approached, see C96.)", "quantifier": "for all slopes (UMDAc) and all measurable cost functions (PBIL), all sizes, learning rates and first generations, all limits on the iterations, all distances R, widths eps and levels eta", "why_tests_cant": "It is a bound for runs of every length at once and for probabilities over infinitely many runs; a test runs finitely many runs of a given length.", "anchors": ["EDAspy/optimization/univariate/umda_continuous.py:92-106", "EDAspy/optimization/univariate/pbil.py:91-108", "EDAspy/optimization/custom/probabilistic_models/univariate_gaussian.py:24-48", "EDAspy/optimization/custom/probabilistic_models/adaptive_univariate_gaussian.py:31-58", "EDAspy/optimization/eda.py:105-116", "EDAspy/optimization/eda.py:163-222"]}
{"id": "C100", "title": "UMDAd with bounds needs on average exponentially many evaluations for any given string", "statement": "Run UMDAd with lower_bound and upper_bound on any cost function (noisy or not) with n binary variables, and let the random numbers of the sampling be independent and uniform in [0,1). Put r = max(upper_bound, 1 - lower_bound), 0.8 with the defaults. For every binary string, an optimum for instance: the probability that a run samples it after the first generation is at most (max_iter - 1) size_gen r^n; so the probability that minimize returns the minimum of a cost function with a unique minimiser is at most that, unless the minimiser is in the first generation. Without early stopping (dead_iter 0) and unless the string is in the first generation, the expected number of generations evaluated before the one that contains it is at least the sum over T < max_iter of (1 - r^n)^(size_gen T), so for max_iter large enough the expected number of evaluations before it exceeds every number below (1/r)^n. With the default bounds and 100 variables that is more than 4 000 000 000 evaluations, even on one_max. (The other side of C64 and C84, which say that the string is found in the end.)", "quantifier": "for all cost functions, sizes, bounds, strings, first generations and numbers of iterations, and all rules by which argsort orders equal costs", "why_tests_cant": "It is a statement about probabilities and expectations over infinitely many runs, of a size that no test can observe: the runs would have to be longer than any test can afford.", "anchors": ["EDAspy/optimization/univariate/umda_binary.py:UMDAd", "EDAspy/optimization/custom/probabilistic_models/univariate_binary.py:UniBin", "EDAspy/optimization/eda.py:EDA.minimize"]}
{"id": "C101", "title": "EMNA leaves a population of equal individuals if and only if lower_factor is positive", "statement": "Run EMNA with at least two variables and lower_factor <= upper_factor, and let the random numbers of the sampling be independent and standard normal. (a) If lower_factor > 0 (the default is 0.5), then whatever the first generation, the cost function, the elite and the white noise, in every generation after the first any two individuals differ in every variable, and no individual takes a given value in a given variable, with probability 1; this holds with all draws of the other generations fixed arbitrarily, so in particular when all individuals have been equal so far. (b) The size of the jump: when all selected individuals are the same individual w, the next generation consists of independent individuals with the multivariate normal law with mean w, variance 2 lower_factor (n-1)/n in every variable and covariance lower_factor (n-2)/n between any two (not standard deviation lower_factor, and not independent variables, unless n = 2). (c) If lower_factor <= 0 <= upper_factor and there is no white noise, a run whose first generation consists of copies of one individual evaluates nothing else, whatever the cost function and the random numbers. (d) In general, for every symmetric pm_cov sample draws independent individuals with the normal law with mean pm_means and as covariance the positive semidefinite matrix whose square is the square of pm_cov; this does not depend on which singular value decomposition numpy computes.", "quantifier": "for all cost functions, sizes, bounds, first generations, draws of the other generations, variables, values, matrices and singular value decompositions", "why_tests_cant": "It is a statement about events of probability 0 and about the exact law of a sample; a test sees finitely many numbers of one run with one decomposition.", "anchors": ["EDAspy/optimization/multivariate/emna.py:EMNA", "EDAspy/optimization/custom/probabilistic_models/multivariate_gaussian.py:MultiGauss.learn", "EDAspy/optimization/custom/probabilistic_models/multivariate_gaussian.py:MultiGauss.sample", "EDAspy/optimization/eda.py:EDA.minimize"]}
{"id": "C102", "title": "EMNA with a positive lower_factor leaves every bounded region", "statement": "Run EMNA with at least two variables, at least as many individuals per generation as variables, 0 < lower_factor <= upper_factor (the defaults are 0.5 and 100) and independent standard normal random numbers in the sampling. For every bound B, every cost function (even a coercive one, or one that changes with every call) and every first generation (even copies of one individual), with or without white noise (whose matrix is drawn once per run and here fixed): the probability that a run without early stopping (dead_iter 0) returns after having evaluated an individual with some variable outside of [-B, B] tends to 1 as max_iter grows. The probability that at least T generations are evaluated without such an individual is at most (1 - q)^(T-1), where q > 0 depends on B, the number of variables, the two factors and the largest entry of the white noise only. So lower_bound and upper_bound of EMNA, which restrict the first generation only, restrict nothing later on.", "quantifier": "for all cost functions, sizes, bounds, first generations, argsorts and singular value decompositions", "why_tests_cant": "It is a statement about the limit of probabilities over infinitely many runs with arbitrarily many generations, for every bound B; a test observes finitely many runs.", "anchors": ["EDAspy/optimization/multivariate/emna.py:EMNA", "EDAspy/optimization/custom/probabilistic_models/multivariate_gaussian.py:MultiGauss.learn", "EDAspy/optimization/custom/probabilistic_models/multivariate_gaussian.py:MultiGauss.sample", "EDAspy/optimization/eda.py:EDA.minimize"]}
{"id": "C103", "title": "EMNA may search a single line for ever and miss the minimum of a continuous cost function, although lower_factor is positive", "statement": "C96 (convergence to the global minimum when lower_factor > 0 and the elite is as large as the selection) does not carry over from UMDAc to EMNA. For every lower_factor l > 0 and upper_factor >= l, every max_iter and dead_iter, and EMNA(size_gen=5, n_variables=2, alpha=0.5, elite_factor=0.4, lower_factor=l, w_noise=None) started from init_data [[l,l],[0,2l],[2l,0],[l,l],[l,l]]: on the cost function min(|x-y-4l|, |x-y+2l|+3l) + |x+y-2l|, which is continuous with bounded level sets and has the minimum 0 at (3l, -l), every run returns, whatever the random numbers are, every individual evaluated after the first generation has two equal coordinates, and no entry of history, in particular not best_cost, is below 2l. The reason: the covariance -2l^2 of the two selected individuals is raised to l, which makes the matrix singular, with the diagonal as the only direction. In general: with two variables, two selected individuals, an elite of two and no white noise, if the first generation contains (x, y+2l) and (x+2l, y) (not in its first row) and these are better than the rest of it and than all points of the line (x+d, y+d), then only points of this line are evaluated after the first generation.", "quantifier": "for all lower_factor > 0 and upper_factor >= lower_factor, all numbers of iterations, all random numbers, all singular value decompositions, all argsorts; for all cost functions in the general form", "why_tests_cant": "It says that something never happens in any run of any length with any random numbers; a test that does not find the minimum in a finite run cannot tell a slow search from one that is confined to a line.", "anchors": ["EDAspy/optimization/multivariate/emna.py:EMNA", "EDAspy/optimization/custom/probabilistic_models/multivariate_gaussian.py:MultiGauss.learn", "EDAspy/optimization/custom/probabilistic_models/multivariate_gaussian.py:MultiGauss.sample", "EDAspy/optimization/eda.py:EDA.minimize"]}
{"id": "C104", "title": "UnivariateKEDA can reach every region from every generation, and with probability 1 meets no singular covariance matrix when enough individuals are selected", "statement": "Assumes n_variables >= 1, matching shapes, costs that are not NaN and independent random numbers with the documented distributions. (a) If a run of UnivariateKEDA samples its generation t >= 1 (t = max_iter - 1), then, whatever the cost function and all earlier random numbers are, for every nonempty open region the new individuals of this generation hit the region with positive probability and the run returns. This does not hold for EMNA, which may be confined to a line (C103). (b) Started without init_data from a box with lower < upper in every variable, and with int(size_gen*alpha) > n_variables + 1, minimize with max_iter=2 returns with probability 1 over the first generation. (c) If int(size_gen*alpha) > n_variables + int(size_gen*elite_factor), and a run with max_iter=k+1 returned, then the run with max_iter=k+2 and the same random numbers in the first k generations returns with probability 1 over the random numbers of the next generation. So under these conditions the LinAlgError of C60 has probability 0 in every generation.", "quantifier": "for all numbers of variables, sizes, cost functions, argsorts, singular value decompositions, white noise and earlier random numbers, and for all nonempty open regions", "why_tests_cant": "A test sees finitely many samples; it cannot show that an event far out in the tail has positive probability, nor that singular matrices have probability exactly 0 for every cost function and every history.", "anchors": ["EDAspy/optimization/univariate/keda.py:UnivariateKEDA", "EDAspy/optimization/custom/probabilistic_models/univariate_kde.py:UniKDE.learn", "EDAspy/optimization/custom/probabilistic_models/univariate_kde.py:UniKDE.sample", "EDAspy/optimization/eda.py:EDA.minimize"]}
{"id": "C105", "title": "UnivariateKEDA searches in the same way in all coordinate systems", "statement": "Assumes exact arithmetic, a run of UnivariateKEDA started from init_data without white noise, and independent random numbers with the documented distributions. Let the coordinates of the search space be changed by any invertible affine map x -> v + xB (other units, shear, rotation), so that init_data is mapped and the cost function takes the new coordinates. (a) There is a map of the random numbers such that the run in the new coordinates, with any random numbers, is the image of the run in the old coordinates with the mapped random numbers: the same exception, or the same costs, history, number of evaluations and, mapped by the change of coordinates, the same individuals at every call of the cost function. The map only rotates the normal numbers of each generation by an orthogonal matrix that depends on the earlier generations only. (b) Rotated numbers have the same distribution. (c) Hence, given the earlier generations, every event about the individuals and costs of the last generation has the same probability in both coordinate systems. EMNA does not have this property, not even for a change of units (C69).", "quantifier": "for all numbers of variables, sizes, invertible affine maps, initial data, cost functions, argsorts, singular value decompositions and random numbers", "why_tests_cant": "A test compares two runs with the same seed, which differ (only their distributions agree), and it covers finitely many maps and cost functions.", "anchors": ["EDAspy/optimization/univariate/keda.py:UnivariateKEDA", "EDAspy/optimization/custom/probabilistic_models/univariate_kde.py:UniKDE.learn", "EDAspy/optimization/custom/probabilistic_models/univariate_kde.py:UniKDE.sample", "EDAspy/optimization/eda.py:EDA.minimize"]}
{"id": "C106", "title": "UnivariateKEDA spreads the individuals it selects", "statement": "Assumes exact arithmetic and independent random numbers with the documented distributions, no white noise. (a) The expected sample variance (divisor size-1) of the individuals UniKDE samples, in every direction of the search space and for every size >= 2, is (N-1)/N + h^2 times that of the N individuals it was learned from, where h is the bandwidth factor. (b) In a run of UnivariateKEDA this holds for the last generation and the individuals selected from the generation before, given all earlier generations; minimize returns for all random numbers of this generation. (c) With the default bandwidth (Scott, h^2 = N^(-2/(n_variables+4))) the factor is greater than 1 for all N >= 2 and all numbers of variables. So without selection (int(size_gen*alpha) = size_gen, no elite) from the third generation on every generation is expected to be strictly wider than the one before, in every direction and for every cost function; only selection can make the search converge. In UMDAc and PBIL the spread shrinks without selection (C98).", "quantifier": "for all numbers of variables, sizes, directions, cost functions, argsorts, singular value decompositions and earlier random numbers", "why_tests_cant": "An expectation over continuous distributions; for large N the factor is close to 1 and an average over samples cannot tell on which side of 1 it is.", "anchors": ["EDAspy/optimization/univariate/keda.py:UnivariateKEDA", "EDAspy/optimization/custom/probabilistic_models/univariate_kde.py:UniKDE.learn", "EDAspy/optimization/custom/probabilistic_models/univariate_kde.py:UniKDE.sample", "EDAspy/optimization/eda.py:EDA.minimize"]}
{"id": "C107", "title": "EMNA draws the spread of every variable towards 1, whatever its unit is", "statement": "Assumes exact arithmetic and independent standard normal numbers, no white noise. (a) The expected sample variance (divisor size-1) of variable j in the individuals MultiGauss samples, for every size >= 2, is at least the standard deviation (not the variance) of variable j in the data it was learned from, for all values of the bounds of the covariances; it is exactly this deviation if the learned matrix is positive semidefinite. (b) In a run of EMNA this holds for the last generation and the individuals selected from the generation before, given all earlier generations; minimize returns for all random numbers of this generation. So if the variance v of a variable among the selected individuals is less than 1, the next generation is expected to have a variance of at least sqrt(v) > v, however small v is; if v is greater than 1 and the matrix is positive semidefinite it is expected to have the variance sqrt(v) < v. For the expected variance of a generation to be at most eps, the selected individuals must have a variance of at most eps^2.", "quantifier": "for all numbers of variables, sizes, covariance bounds, cost functions, argsorts, singular value decompositions and earlier random numbers", "why_tests_cant": "An expectation over continuous distributions, and an inequality for all learned matrices, also those that are not positive semidefinite; a test on variables of deviation near 1 shows no difference between deviation and variance.", "anchors": ["EDAspy/optimization/multivariate/emna.py:EMNA", "EDAspy/optimization/custom/probabilistic_models/multivariate_gaussian.py:MultiGauss.learn", "EDAspy/optimization/custom/probabilistic_models/multivariate_gaussian.py:MultiGauss.sample", "EDAspy/optimization/eda.py:EDA.minimize"]}
{"id": "C108", "title": "UMDAc and PBIL forget the correlations between the variables of the selected individuals", "statement": "Assumes exact arithmetic and independent standard normal numbers, no white noise. (a) In a run of UMDAc or PBIL, given all earlier generations, the expected sample variance (divisor size_gen-1) of the last generation in the direction w is the sum over the variables of w_j^2 max(d_j, lower_factor)^2, where d_j is the standard deviation (divisor N) of variable j among the individuals selected from the generation before; it does not depend on how the variables of these individuals are correlated, nor on the learning rate of PBIL. minimize returns for all random numbers of this generation. (b) If the N selected individuals lie on a line p + t d and lower_factor = 0, their own sample variance in the direction w is (w.d)^2 v N/(N-1) and the expected one of the next generation is (sum of (w_j d_j)^2) v, with v the variance of the numbers t: across the line the selected individuals do not vary but the next generation does, and along the diagonal of n variables the spread is divided by n N/(N-1). UnivariateKEDA keeps the proportions of all directions (C106).", "quantifier": "for all numbers of variables >= 1, sizes >= 2, directions, cost functions, argsorts, bounds of the deviation, learning rates and earlier random numbers", "why_tests_cant": "An expectation over continuous distributions, for all directions and all correlations of the selected individuals; tests that look at single variables cannot see it.", "anchors": ["EDAspy/optimization/univariate/umda_continuous.py:UMDAc", "EDAspy/optimization/univariate/pbil.py:PBIL", "EDAspy/optimization/custom/probabilistic_models/univariate_gaussian.py:UniGauss.learn", "EDAspy/optimization/custom/probabilistic_models/univariate_gaussian.py:UniGauss.sample", "EDAspy/optimization/custom/probabilistic_models/adaptive_univariate_gaussian.py:AdaptUniGauss.learn", "EDAspy/optimization/eda.py:EDA.minimize"]}
{"id": "C109", "title": "On sums of squares UMDAc keeps the quality of the selected individuals, EMNA loses it near the minimum", "statement": "Let the cost be a sum of a_j (x_j - o_j)^2 with a_j >= 0; exact arithmetic, independent standard normal numbers, no white noise. (a) UMDAc: given everything drawn before, the expected mean cost of the last generation is at most the mean of the truncation_length lowest costs of the generation before plus the sum of a_j lower_factor^2. (b) EMNA: it is at least the mean cost of the individuals selected from the generation before plus the sum of a_j (sqrt(v_j) - v_j), where v_j is the variance of variable j among them, and equal to this if the learned covariance matrix is positive semidefinite; so if no v_j exceeds 1 and some v_j with a_j > 0 lies strictly between 0 and 1, the next generation is expected to be strictly worse than the selected individuals, however close they are to the minimum. In both cases the run reaches the last generation with probability 1.", "quantifier": "every such cost function, all earlier draws, elites, sizes, covariance bounds, singular value decompositions and numbers of iterations; all constructor arguments otherwise", "why_tests_cant": "An expectation over continuous distributions for all cost functions of a class and all histories; on test functions with variables of deviation near 1 the two algorithms look alike.", "anchors": ["EDAspy/optimization/univariate/umda_continuous.py:UMDAc", "EDAspy/optimization/multivariate/emna.py:EMNA", "EDAspy/optimization/custom/probabilistic_models/univariate_gaussian.py:UniGauss.learn", "EDAspy/optimization/custom/probabilistic_models/multivariate_gaussian.py:MultiGauss.learn", "EDAspy/optimization/custom/probabilistic_models/multivariate_gaussian.py:MultiGauss.sample", "EDAspy/optimization/eda.py:EDA.minimize"]}
{"id": "C110", "title": "On sums of squares UnivariateKEDA loses quality between selection and the next generation", "statement": "Let q be a sum of a_j (x_j - o_j)^2; exact arithmetic, independent standard normal and uniform numbers, no white noise, bounds and sizes that let UnivariateKEDA run. Given the generations before, the expected mean of q over the last generation is exactly the mean of q over the N individuals selected from the generation before, plus h^2 times the sum of a_j s_j, where h is the bandwidth factor for N individuals and s_j the sample variance (divided by N - 1) of variable j among them. So with a bandwidth factor above 0, an exact test of positive definiteness, all a_j >= 0 and some a_j > 0, the last generation is expected to be strictly worse for q than the individuals it was learned from, wherever the minimum o is and whatever cost function is minimised. With probability 1 the run reaches the last generation.", "quantifier": "every sum of squares, every cost function, all earlier draws, elites, sizes, bandwidth factors, singular value decompositions and numbers of iterations", "why_tests_cant": "An exact expectation over continuous distributions for all histories; selection hides the loss in the best cost, which is what tests look at.", "anchors": ["EDAspy/optimization/univariate/keda.py:UnivariateKEDA", "EDAspy/optimization/custom/probabilistic_models/univariate_kde.py:UniKDE.learn", "EDAspy/optimization/custom/probabilistic_models/univariate_kde.py:UniKDE.sample", "EDAspy/optimization/eda.py:EDA.minimize"]}
{"id": "C111", "title": "On sums of squares PBIL improves on the selected individuals exactly when its moved mean is better than their mean", "statement": "Let the cost q be a sum of a_j (x_j - o_j)^2; exact arithmetic, independent standard normal numbers, no white noise. Let M be the mean of the individuals selected from the generation before, sorted by cost, and M' = (1 - alpha) M + alpha (first + second - last of them). Given everything drawn before, the expected mean cost of the last generation of PBIL is exactly the mean cost of the selected individuals, plus q(M') - q(M), plus the sum of a_j (max(d_j, lower_factor)^2 - d_j^2), where d_j is the standard deviation of variable j among them. So if lower_factor exceeds no d_j, the last generation is expected to be better than the selected individuals if and only if q(M') < q(M). With probability 1 the run reaches the last generation.", "quantifier": "every such cost function (weights of any sign), all earlier draws, elites, sizes, learning rates and numbers of iterations; all constructor arguments otherwise", "why_tests_cant": "An exact expectation over continuous distributions for all cost functions of a class and all histories.", "anchors": ["EDAspy/optimization/univariate/pbil.py:PBIL", "EDAspy/optimization/custom/probabilistic_models/adaptive_univariate_gaussian.py:AdaptUniGauss.learn", "EDAspy/optimization/custom/probabilistic_models/univariate_gaussian.py:UniGauss.sample", "EDAspy/optimization/eda.py:EDA.minimize"]}
{"id": "C112", "title": "On quadratic functions UMDAc pays for the correlations it forgets", "statement": "Let the cost be a quadratic function, written as a sum of a_r (w_r x - o_r)^2 with arbitrary real weights a_r and vectors w_r, so that the variables may interact; exact arithmetic, independent standard normal numbers, no white noise. Given everything drawn before, the expected mean cost of the last generation of UMDAc is exactly the mean cost of the individuals selected from the generation before, plus the sum of a_r (i_r - v_r), where v_r is the variance of w_r x among them and i_r = sum_j w_rj^2 max(d_j, lower_factor)^2 is the variance that w_r x has when the variables are independent with the standard deviations d_j of the selected individuals, raised to lower_factor. With probability 1 the run reaches the last generation. For instance in the valley (x - y)^2 individuals of cost 0 can lead to a generation of expected cost 2.", "quantifier": "every quadratic cost function of this form with any number of terms, all earlier draws, elites, sizes and numbers of iterations; all constructor arguments otherwise", "why_tests_cant": "An exact expectation over continuous distributions for all quadratic functions and all histories; on separable test functions the loss is 0.", "anchors": ["EDAspy/optimization/univariate/umda_continuous.py:UMDAc", "EDAspy/optimization/custom/probabilistic_models/univariate_gaussian.py:UniGauss.learn", "EDAspy/optimization/custom/probabilistic_models/univariate_gaussian.py:UniGauss.sample", "EDAspy/optimization/eda.py:EDA.minimize"]}
{"id": "C113", "title": "On quadratic functions UnivariateKEDA keeps the correlations of the selected individuals and loses only by its bandwidth", "statement": "Let q be a quadratic function, written as a sum of a_r (w_r x - o_r)^2 with arbitrary real weights a_r and vectors w_r; exact arithmetic, independent standard normal and uniform numbers, no white noise, bounds and sizes that let UnivariateKEDA run. Given the generations before, the expected mean of q over the last generation is exactly the mean of q over the N individuals selected from the generation before, plus h^2 times the sum of a_r v_r, where h is the bandwidth factor for N individuals and v_r the sample variance (divided by N - 1) of w_r x among them. So terms along which the selected individuals do not vary are not affected, unlike in UMDAc (C112). This holds whatever cost function is minimised. With probability 1 the run reaches the last generation.", "quantifier": "every quadratic function of this form with any number of terms, every cost function, all earlier draws, elites, sizes, bandwidth factors, singular value decompositions and numbers of iterations", "why_tests_cant": "An exact expectation over continuous distributions for all quadratic functions and all histories.", "anchors": ["EDAspy/optimization/univariate/keda.py:UnivariateKEDA", "EDAspy/optimization/custom/probabilistic_models/univariate_kde.py:UniKDE.learn", "EDAspy/optimization/custom/probabilistic_models/univariate_kde.py:UniKDE.sample", "EDAspy/optimization/eda.py:EDA.minimize"]}
