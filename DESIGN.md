# Formal model of probcomp/cgpm in Lean 4

## 1. What is trusted

* Lean 4.33.0's kernel, and the definitions and theorems of Mathlib that the
  modules import. Every theorem depends only on `propext`,
  `Classical.choice`, `Quot.sound` (section 6 says how this is checked).
* The transcription Python -> Lean. Each definition cites the file and lines it
  models; simplifications are in that comment and summarised in section 3.
* The following idealisations, made once and for all:
  * floats are real numbers (`Real`), and `-inf` is an explicit extra value of
    log densities (`WithBot Real`). Rounding is not modelled.
  * `gammaln` is `log` of Mathlib's `Real.Gamma`; `betaln a b` is
    `gammaln a + gammaln b - gammaln (a+b)`.
  * Python integers are `Nat`/`Int`; row ids, column ids and table ids are
    naturals (negative ids cannot be produced by the library).
  * `dict` and `OrderedDict` are insertion-ordered association lists with unique
    keys. For plain Python-2 dicts the iteration order is unspecified, so
    theorems that could depend on it are stated for every order (permutation)
    or only use order-insensitive observables.
  * every random draw is an explicit argument (an "outcome"), and theorems
    quantify over all outcomes, not over the draws of one seed.
  * exceptions are values; an operation that raises returns the exception
    *and the state it leaves behind*, so partial updates are visible.

## 2. Layout

* `lean/Verif/Model/*`  - the model: one file per source area.
* `lean/Verif/Lemmas/*` - proof machinery (no property is stated there).
* `lean/Verif/Props/*`  - the property theorems `Cxx_...`, each with a small
  stand-alone specification and an `example` showing the hypotheses are met by
  a concrete non-trivial case.
* `seeded/LOG.jsonl` - wrong-program experiments.
* `MANIFEST.json` - property -> theorem names.

## 3. Plan per property

| id | modelled | how proved |
|----|----------|-----------|
| C01 | `Crp.incorporate/unincorporate` with counts/N/data | invariant + refinement to the abstract customer->table map, induction on the history |
| C02 | `Crp.logpdf/simulate` over the reals | sum over counts = N, algebra |
| C03 | `calc_logpdf_marginal`, `logp_crp` | Gamma recurrence; permutation invariance of list sums |
| C04 | `gibbs_tables/gibbs_logps/singleton` | relate to the state after `unincorporate` |
| C05 | ten primitives as (support, statistics, add, sub) + data map | one generic induction, one lawfulness lemma per primitive |
| C06 | same | case analysis; refuted for Beta (clamps) with the correct part kept |
| C07 | predictive and marginal formulas of eight primitives | telescoping + algebra; then induction for the chain rule |
| C08 | four discrete primitives and the normal, lognormal and exponential densities | finite sums; `HasSum` for geometric (telescoping Beta function) and poisson (negative binomial series); integrals of the Student and Lomax densities |
| C09 | `Normal.posterior_hypers` | Cauchy-Schwarz/variance induction |
| C10 | `Dim` | invariant by induction on the history |
| C11-C13 | `View` | invariant by induction; inverse lemmas up to observational equality |
| C14 | Gibbs weights, `logpdf_score` | C04 + C07 summed over columns |
| C15-C17 | `View.logpdf`, `sampling.view_logpdf` | algebra of finite mixtures over `WithBot Real` |
| C18-C21 | `State` | invariant by induction; counterexamples where the code breaks the claim |
| C22-C24 | `utils/general.py`, `utils/validation.py` | induction over the customers |
| C25-C27 | `network/*` | fuel-free well-founded loop; characterisation by cycles |
| C28-C30 | `State` queries, `relevance.py` | definitional unfolding against a separate spec, inverse lemmas |
| C31 | `parallel_map` as a transition system | inductive invariant over all interleavings, progress |
| C32 | `_transition_generic` | induction on sweeps with an arbitrary monotone clock |
| C33 | `Engine`: list of states, in one process or several | list induction; refinement of the parallel path to C31 |
| C34 | `to_metadata/from_metadata` of View, State, composition and Engine | replay of the constructor on the metadata; the result is again reachable, hence equal to the original by the invariant |
| C35-C36 | log-space helpers | real analysis; inverse-CDF sampling |
| C37-C39 | partition, dummy code, resampling over the Engine's states | list induction; C35 and C36 for the weights |
| C40-C41 | `lovecat._crosscat_X_D`, `_update_state`; `loomcat._update_state` with the parsing of its files | each migration step keeps an exact description of the State; the result equals the output of the constructor, hence is reachable and all State theorems apply to it |
| C42-C43 | stand-alone CGPM bookkeeping, compose/decompose | invariants; histories of compose, decompose and State calls |
| C44 | mh/slice/rejection samplers, `transition_params` of the uncollapsed types | loop invariants over all outcomes and all densities |
| C45 | `_populate_constraints` | map reasoning; counterexample for the composite State |
| C46 | hypers of clusters | invariant |
| C47 | `mutual_information`, `_partition_mutual_information_query`, `_compute_*`; `retrieve_weakly_connected_components` with scipy's labelling as a contract | the labels are the connected classes; the sum over views of log densities gives exactness |
| C48 | `FactorAnalysis`: constructor, `reindex`, `joint_parameters`, `mvn_condition`, `populate_constraints`, `logpdf`, `simulate`, `transition`; `mvnormal.logpdf`, `conditional` | Schur complement (determinant and quadratic form), Woodbury identity, one-dimensional Gaussian integral |
| C49 | `hist`, `entropyd`, `midd`, `cmidd` of `entropy_estimators.py` | the estimates are sums over cells; Gibbs' inequality |
| C50 | `update_cctype` | invariants |
| C51 | exceptions inside `View` updates | the state left behind by each exception |
| C52 | weights of the column Gibbs kernel | algebra over the score of the State |
| C53 | `retrieve_ancestors`, `retrieve_descendents` | transitive closure, by well-founded induction |
| C54 | `sampling.state_simulate` | equality with the per-row sampler; counterexamples |
| C55 | `LinearRegression`: constructor, row updates, `set_hypers`, `logpdf`, `simulate`, `logpdf_score` and the static functions they call | completing the square, Gaussian integral in any dimension, matrix determinant lemma, Student integral |
| C56 | `construct_hyper_grids` of every type, `log_linspace`; what `set_hypers` and the constructors read and assert | positivity and bounds of the grid points, case analysis over the types |
| C57 | `Dim.transition_hypers`, `transition_hyper_grids`; `LinearRegression.transition_hypers` | invariant over the grid loops; one uniform draw averaged to the normalised weights; a Gibbs step preserves the product weights |
| C58 | `View.transition_rows`, `_gibbs_transition_row` with the draw of `log_pflip`; `View.logpdf_score` | relabelling of clusters preserves the score; candidates of a row are in bijection with the partitions that agree off the row; the uniform draw averaged to the normalised weights |
| C59 | the same, repeated | one pass gives every partition at least a fixed probability (minorisation), hence geometric contraction to the invariant law |
| C60 | Model/ColGibbs (`Crp.simulate`, `simulateRows`, `newCrp`, `drawView`, `auxViews`, `gibbsDim`, `transitionDims`) over the State model; Spec/ColGibbs: latent structures, posterior weight | the law of a drawn view is grid times CRP; a column transition is, in law, one step of Neal's algorithm 8 on latent structures (Lemmas/ColLaw), which leaves the posterior invariant (Lemmas/AuxGibbs, Latent); composition over a pass |
| C61 | Model/Transition (`Crp.transitionAlpha`, `View.transitionCrpAlpha`, `transitionRowsIn`, `State.transitionCrpAlpha`, `visitViews`, `viewsFor`, `callKernel`, `callKernels`, `transition`); Spec/Transition: legal orders, what is left untouched | each kernel is, in law, a chain on latent structures that leaves the weight invariant: the concentration (Lemmas/AlphaGibbs), and for each view a chain on its concentration and row partition whose weight is a factor of the joint weight (Lemmas/LatentLocal, StateFactor, TransitionViews); composition over the schedule |
| C62 | the same, repeated; Spec/Sweep: posterior expectation | every kernel is a linear, monotone, unit-preserving operator (Lemmas/Mixing, SweepReach); from any structure each kernel moves its part to that of any structure of positive weight with probability bounded below (Lemmas/LatentReach, ColReach); two rounds of the list reach everything (Lemmas/SweepChain), hence geometric contraction |
| C63 | Model/HyperSweep (`Prim.toDict`, `liftApi`, `hyperLib`, `Dim.drawHypers`, `State.drawHypers`, `callAny`, `transitionAny`) over Model/Transition and Model/HyperGrid; Spec/HyperSweep: choices from the grids, posterior on hyperparameters and latent structures | the States of a model fall into fibers by their hyperparameters, on each of which C61 holds (Lemmas/HyperFiber, HyperChain); 'column_hypers' is, in law, a Gibbs step across fibers (Lemmas/HyperConfig, HyperSound, HyperChain); composition over the schedule (Lemmas/HyperKernels) |
| C64 | the same, repeated; Spec/HyperSweep: posterior expectation | the bounds of C62 on each fiber, uniform over the finitely many fibers, with the bound that 'column_hypers' reaches every choice (Lemmas/HyperReach); geometric contraction |
| C65 | Model/Rand (programs that draw), Model/Kde (all of `MultivariateKde`; statsmodels' `gpke`, `KDEMultivariate.pdf`, `KDEMultivariateConditional.pdf` as their formulas; bandwidths learnt are given); Spec/Rand: expected values; Spec/MvRows, Spec/Kde: exemplars, kernels, mixture | induction over the variables of a query; sums over assignments by Fubini, one variable at a time; expectation of a program is linear, draws are independent |
| C66 | Model/Knn (all of `MultivariateKnn`; sklearn's `KDTree.query` as any function that meets the contract `Finds` of Spec/Knn), Model/Rand `uniform`, `sample`; Spec/Knn: distance, neighbours, localities, mixture | the search gives a list of equally probable neighbourhoods, by counting nearer rows; each fixes the answer of `logpdf` and the law of the samples; sums over assignments as in C65 |
| C67 | Model/Forest (all of `RandomForest`; the schema, `preprocess` and rows are those of C42; sklearn's classifier is its `classes_` and `predict_proba`, and `fit` a program that meets the contract `Fits` of Spec/Forest); Spec/Forest: mixture, likelihood | the two terms of `logsumexp` are the mixture; the classes of a fitted forest are among the categories of the rows, by induction over the history; `log_pflip` draws with normalised weights |
| C68 | Model/Ols (all of `OrdinaryLeastSquares`; sklearn's `LinearRegression.fit` is any function that meets the contract `LeastSquares` of Spec/Ols); Spec/Ols: affine functions, loss, likelihood | a solution exists: the values are projected on the finite dimensional space of predictions; the likelihood is greatest at the least loss and at the mean square residual, by log x ≤ x - 1 |
| C69 | Model/PrimSimulate (`simulate` of all components; numpy's generators are measures on the line: Mathlib's beta, gamma, exponential and normal laws, and the densities of the documentation for the others), Model/Crp; Spec/PrimSimulate: expected value of a program that draws | compound draws: Tonelli, and each conjugate pair is again a density of the prior's family times the predictive; the normal pair by convolution of normal laws, the von Mises pair by addition of two waves and periodicity; rejection sampling by induction on the number of tries |
| C70 | Model/StateDraws (`State.simulate` with its draws: clusters by `log_pflip`, values by the components of Model/PrimSimulate); the integral over the target columns is Mathlib's `lmarginal` with, for each column, counting measure or length | law of one component (C69), of the row of a cluster by induction over its columns, of a view by the finite mixture over clusters, of the State by induction over the views; normalisation from the program, marginals by the chain rule |
| C71 | Model/NetDraws (the queries of src/network/importance.py with the draws of the components and of `log_pflip`); Spec/NetDraws: what a component's density is, joint density as product, integrals by Mathlib's `lmarginal` | induction over the evaluation order: the expected future weight is an integral over the outputs still to come (Tonelli, each component by its own law); components that take no part integrate to one; `many` samples have the product law (`Measure.pi`) |
| C72 | as C71; Spec/NetDraws: integral with the evidence held, density of the evidence, conditional mean, second moment of the weights | the weighted samples have a product law (C71); self-normalised importance sampling in general (Lemmas/SelfNormalised: second moments of sums of independent terms, Chebyshev), then the moments are integrals of the joint density by the identity of C71; accuracy one directly |
| C73 | Model/ViewDraws: `View.simulate`/`logpdf` as a component whose network exposes the cluster (CRP first, then the columns); Model/CompositeDraws: the composite branch of `State.simulate`/`logpdf`; Spec/ViewDraws, Spec/CompositeDraws: joint density of cluster and values, base measure of a row, queries about own columns | a view keeps the contract of a component (`Behaves`): inside it the CRP and the columns do (C69, C21), weights are removed because the evidence is summed over clusters exactly; then C71/C72 for the network of the State; marginals over the cluster variable are sums over the clusters, so own columns get `stateDensity`, as in C16 and C70 |
| C74 | Model/RegDraws: `simulate` of linreg (`sample_parameters`, `simulate_params`), of the factor analysis and of the forest as draws, and the three models as components of a network; Spec/RegDraws: their output densities, `LibraryModel`, `Feasible` | affine image of independent normals (Lemmas/MvnLaw); normal-inverse-gamma posterior draw integrated out by the evidence identity of C55 (Lemmas/LinRegLaw); densities of models with inputs are bounded (Lemmas/LinRegBound), so the second moment of the weights is finite (C72_moment); then C73 |
| C75 | Model/MhDraws: `mh_sample` with its draws, and the log densities and domains that `transition_params` of beta and truncated normal give it; Spec/MhDraws: invariant density of a random move, one iteration as a move | detailed balance for proposals that are symmetric up to a weight (Tonelli); uniqueness by the flow between the level sets of the ratio of two densities; folded normal proposals are symmetric on the half line; on the unit interval the mean of the fold of a uniform point is computed for each jump; on other intervals the level sets of the acceptance chance of the trials |
| C76 | Model/Examples: `simulate` and `logpdf` of the models of src/dummy and src/uncorrelated; Spec/Examples: their densities | the directed ones keep the contract of a component (`Behaves`), then C71 for the network; translations of uniform and normal densities; the normal pair by its 2x2 inverse and the chain rule (Lemmas/MvnLaw for the draw); tables by summation; almost sure ranges for Ring and DiamondY |
| C77 | Model/BatchDraws: `state_simulate`, `view_simulate` and `_simulate_row` with `N` samples as programs that draw; Spec/BatchDraws: independent draws, up to order | the draws of clusters as a mixture over label lists; for symmetric functions the groups by cluster are a permutation of the labels (Tonelli, induction over labels and clusters); product over the views |
| C78 | Model/BatchDraws: samples of all states, weights, `_likelihood_weighted_resample` with its draws | choosing `n` of `N` exchangeable draws without replacement gives `n` independent draws; then counts per state as for C77; instances from C77 and C16 |
| C79 | Model/Venture: the rows, labels and directives of a VsCGpm; the interpreter is its labelled directives | effects of each part of the calls on the records; invariant linking the three; induction over the calls |
| C80 | Model/MutualDraws: the estimators of C47 over the batches of C77 | the batch is independent draws up to order, the mean does not see the order; mixture densities: the joint density is at most a constant times the product of the marginal ones, so the logarithm of the ratio has a second moment; Gibbs' inequality; Chebyshev's inequality; for a query over several views, the law of the sum of the answers of the blocks and a union bound |
| C81 | Model/SliceDraws: `slice_sample` with its draws, over `_find_slice_interval` of C44; Spec/SliceDraws: the density that is sampled, one iteration and a whole run as moves | density of the next point at a level: the interval that is found from `x` is found from `x'` at a shifted offset (substitution modulo 1), the shrinking interval is symmetric by induction; levels by Tonelli; the steps out end because a density of finite mass is summable along almost every grid, the shrinking because almost every point is a density point of the set above the level; iterates by monotone convergence |
| C82 | Model/RejectDraws: `rejection_sample` with its draws | the uniform number accepts with the ratio of the densities; recursion over trials and samples, its supremum solves a linear equation whose solution is the product law |
| C83 | Model/Mvn: `mvnormal.logpdf`, `dlogpdf`, the Cholesky factorisation | Jacobi's formula from the expansion of `det (1 + s M)`; the derivative of the inverse from `S S⁻¹ = 1`; triangular determinants; existence of the factor from the LDL decomposition |
| C84 | Model/Schema: `parse_schema`, `build_valmap`, `parse_distargs`, `cctype_class`; strings are lists of characters, `sorted` is any function that permutes | induction over the schema; positions in a list without duplicates; splitting of joined strings |
| C85 | Model/Inline: `InlineVsCGpm` with its labels; Venture is a parameter | induction over the calls; an invariant on the labels |
| C86 | Model/Saved: `to_metadata` and `from_metadata` of LinReg, OLS, RandomForest, FactorAnalysis, MultivariateKde, MultivariateKnn; the order of a dictionary read from JSON is a parameter | an invariant (both dictionaries of rows have the same keys in the same order) by induction over the calls; a relation between the original and its copy kept by every call; every answer is invariant under permutations of the rows |
| C87 | Model/LovecatRun: `_crosscat_M_c`, `_crosscat_T`, the hyperparameters of `_crosscat_X_L`, `transition`, `State.transition_lovecat`; Lovecat and `sorted(set(...))` are parameters | the coding of a column is the index in a duplicate-free list of naturals below k; cells are naturals by the State invariant; export and import by C40 |
| C88 | Model/Neighbours: `entropy`, `mi`, `cmi`, `kldiv`, `micd`, `avgdigamma`, `zip2`; scipy's KD tree as exact order statistics of the distances, `digamma` and the noise are parameters | the k-th element of the sorted distances is the unique r with k points within r and fewer within any smaller distance; maps that keep or scale distances |
| C89 | Model/LoomRun: `loom_stattype`, `_write_dataset`, `_write_schema`, `_generate_project_paths`, `initialize`, `_validate_transition`, `transition`, `transition_engine`; the store of projects is a dictionary by creation time; Loom is a parameter | the files list the columns of the table by the State invariant; "the project describes the State" is an invariant of all changes that keep the table; import by C41 |
| C90 | Model/Seating: `logp_crp`, `logp_crp_unorm`, `logp_crp_gibbs`, `logp_crp_fresh`, `log_nCk`; numbers are Python integers or reals where it makes a difference | Gamma(x + 1) = x Gamma(x); the seats of a customer are the counts of the list without them; sums of counts |
| C91 | Model/Bulk: `incorporate_bulk`, `force_cell_bulk`, `simulate_bulk`, `logpdf_bulk` of a State, on the model of the single calls; single queries are arbitrary functions of their arguments and draws | Induction over the list: rows or cells that fit still fit after the first of them, since columns keep their types and inputs |
| C92 | Model/Synth: `gen_data_table`, `gen_partition` and the ten `_gen_*_data` functions; the samplers of NumPy are arbitrary functions of their parameters and draws that return values in range | Cases over the types for a cell; a list of cells, columns or partitions is collected without failure or stops with the ValueError of a truncated normal column |
| C30 (debug checks) | Model/RelevanceDebug: relevance.py:165-207, 291-301 and the comparison of scores at 107-109, 218-220 | the off-diagonal cases are counted up to an exchange of two new clusters (score invariant under renaming); two-cluster scores change by the gain of the full score |

## 4. Not modelled

Plotting, CSV/pickle I/O, the numerical internals of
scikit-learn/scipy/statsmodels estimators, the compiled crosscat and loom
engines (only the conversion code around them), Venture programs (only the
bookkeeping around them), the pseudo random generator
itself, float rounding, and CPU/OS level behaviour of pipes (they are reliable
FIFO channels in the model). Of `entropy_estimators.py` only `shuffle_test` is
not modelled. `midd` does not refuse
samples of different lengths (`zip` drops the rest); the theorems of C49 about
its value assume equal lengths.

## 5. Where the code and the property disagree

### 5.1 With a theorem that exhibits the disagreement

| property | what the code does | theorem |
|---|---|---|
| C06 | `Beta.incorporate` clamps values outside (0,1) instead of refusing them, while `logpdf` gives them density 0 | C06_beta_clamp_violated |
| C15 | a query for the cluster given constraints of density zero returns NaN | C15_cluster_target |
| C16 | an impossible constraint in a view without targets is ignored by the fast path and refused by the network path | C16_state_refusal |
| C18 | column transitions of uncollapsed types, when the views are not listed in increasing order, can leave a State that fails its own checks | C18_uncollapsed_violated |
| C19 | `State.incorporate` and `incorporate_dim` that raise on a value leave a changed State | C19_incorporate_violated, C19_incorporate_dim_violated |
| C19 | `transition_dims` with `m=0` raises AssertionError after it has taken the column out of its view | C19_no_auxiliary_violated |
| C21 | `transition_dims` pairs sorted view identifiers with probabilities in dict order | C21_order_violated |
| C21 | `incorporate_dim` ignores the dependence constraints that mention the new column | C21_new_column_violated |
| C21 | `unincorporate_dim` keeps the independence constraints of the column; every later transition of the other column raises KeyError and leaves that column in no view | C21_removed_column_violated |
| C21 | the Loom import ignores the dependence constraints of the State | C21_loom_violated |
| C22 | empty dependence blocks pass validation and make initialiser and score fail | C22_empty_blocks_violated, C22_empty_block_score_violated |
| C30 | relevance with a repeated query row, or with all rows, raises after the rows were removed | C30_view_duplicate_violated, C30_view_all_rows_violated |
| C33 | `statenos=[]` means all states | C33_empty_violated |
| C33 | an update that raises in the same process leaves some states updated and others not | C33_inplace_violated |
| C33 | a state requested twice is updated twice in the same process and once in others | C33_twice_violated |
| C34 | the metadata of a view loses its row numbers when they have gaps | C34_view_gap_violated |
| C34 | restored models have new tokens; `decompose_cgpm` with an old one raises KeyError | C34_tokens_violated |
| C34 | a State that is composite because of a conditional column is not after the round trip | C34_flag_violated |
| C34 | the metadata of an Engine keeps the data of its first state only | C34_engine_data_violated |
| C39 | the assertion on the number of samples checks nothing when `statenos` is given (precedence of `if ... else`) | C39_assertion_violated |
| C39 | the weights are computed with the inputs passed as constraints | C39_inputs_violated |
| C40 | the Lovecat export lists the row assignments of a view in dict insertion order, so after a row has moved the labels belong to other rows and the round trip changes the partition | C40_violated |
| C42 | `RandomForest.unincorporate` leaves the category counts unchanged | C42_forest_counts_stale |
| C43 | a State constructed with a conditional column says that it is not composite | C43_flag_violated |
| C47 | `mutual_information` simulates the marginalised variables without the equality constraints | C47_marginal_violated |
| C48 | `FactorAnalysis.logpdf_score` iterates over row numbers and raises TypeError as soon as there is data (outside the statement of C48) | C48_score_raises |
| C55 | a row with a missing numerical input is accepted, and makes the score and every density of a linear regression NaN until it is removed (outside the statement of C55) | C55_nan |
| C57 | hyperparameters with a name missing (or unknown) are accepted, by defaults, and then every hyperparameter transition of the column raises (outside the statement of C57) | C57_missing_hyper, C57_unknown_hyper |
| C56 | a column without a single observed value makes `construct_hyper_grids`, hence the construction of a State, raise (outside the statement of C56) | C56_no_data |
| C45 | `State._populate_constraints` skips the first column | C45_first_column_violated |
| C45 | the density of a variable of a composed model at an existing row raises KeyError | C45_foreign_target_violated |
| C46 | `Dim.set_hypers` leaves the template of new clusters stale | C46_set_hypers_leaves_template |
| C50 | a refused `update_cctype` has already removed the column | C50_refused_update_drops_column |
| C51 | `View.incorporate` that raises on a value leaves an inconsistent view | C51_raising_incorporate_violated |
| C54 | rows simulated together are not independent given the model: the draws are grouped by cluster before they are matched to rows | C54_batch_violated |
| C54 | a simulation without targets returns no rows | C54_no_targets_violated |
| C65 | the kernel of a nominal variable spreads its mass over the categories seen, not over the `k` that exist: densities of the categories add up to more than one, and `simulate` has another law | C65_unseen_violated |
| C65 | `logpdf` without constraints raises ValueError if there are not more rows than targets, where `simulate` answers | C65_few_violated |
| C65 | with missing cells a joint density is not the product of marginal and conditional density | C65_missing_violated |
| C66 | with ties at the distance of the K-th neighbour the K neighbours are drawn from all rows up to that distance, so nearer ones may be left out, and `logpdf` of one query has different answers | C66_ties, C66_ties_violated |
| C66 | with such ties the `N` samples of `simulate` share the neighbours and are not independent | C66_many_violated |
| C66 | the last category is coded by zeros, so it is nearer to the others than they are to each other; renaming categories changes the answers | C66_labels_violated |
| C66 | a locality has `min(M, K)` rows, not the `M` of the documentation | C66_locality_violated |
| C68 | `simulate` draws the noise and throws it away: every sample is the prediction, an event of probability zero under `logpdf` | C68_simulate_violated |
| C68 | at an observed row `simulate` returns one sample instead of a list of `N` | C68_many_violated |
| C68 | after a transition on rows that an affine function predicts exactly, such as a single row, the noise is zero and every `logpdf` raises | C68_exact_violated |
| C68 | `logpdf` ignores targets other than the output instead of refusing them | C68_foreign_targets_violated |
| C72 | with the default accuracy of 1 `simulate` given evidence ignores the weight: given a copy that is right nine times in ten, a fair coin is simulated as 1 with probability 1/2, not 9/10 | C72_one_sample, C72_one_sample_far |
| C75 | the fold `% 1` of the proposals on the unit interval is not symmetric: inference over the balance of a beta component does not leave its posterior invariant | C75_unit_violated, C75_balance_violated |
| C75 | proposals on other intervals are truncated without correction: inference over the mean of a truncated normal does not leave its posterior invariant | C75_interval, C75_interval_violated, C75_mu_violated |
| C75 | the target for the deviation of a truncated normal leaves out the prior and adds the log normaliser that the score subtracts | C75_sigma_violated |
| C76 | two of the four probability tables of `FourWay` do not sum to one; it draws from the normalised ones | C76_fourway_violated |
| C76 | `PieceWise.logpdf` reads the value of `z` where it means that of `x`: its densities of `x` are constant in `x`, and `z` drawn given `x` does not depend on `x` | C76_piecewise_violated, C76_piecewise_z_violated |
| C76 | `Parabola`, `Sin` and `Diamond` drop the constraints of a query and pass the inputs as constraints | C76_directed_violated |
| C76 | the models of pairs without direction fail on the density of one variable (misspelt method) | C76_marginal_violated |
| C76 | `Dots` reports the density of the given value as that of the target | C76_dots_violated |
| C79 | a `simulate` with constraints for a row without cells leaves an entry for the row, without inputs: with inputs, the row cannot be incorporated any more (KeyError), but it can be unincorporated | C79_constraint_violated |
| C79 | when an observer of the program refuses a value, the values observed before it in the same call stay | C79_refused_violated |
| C82 | the documentation of `rejection_sample` asks for log densities; the code compares `rand * proposal` with `target`, and given negative logarithms it never accepts | C82_log_violated |
| C84 | the type `categorical(k=7)` of the documentation is not recognised: the values are not coded and the type is unknown afterwards | C84_stated_k_violated |
| C84 | arguments are looked for in the name of a categorical column: a name like `income (usd)` raises ValueError | C84_column_name_violated |
| C85 | when Venture raises during a query of an inline model, the expression stays assumed under its label and every later query of the kind raises | C85_error_violated |
| C86 | the metadata of a linear regression leaves out the mean and the scale of its prior: a model made with others than the defaults is loaded with the defaults and answers queries differently | C86_linreg_prior_violated |
| C87 | `transition_lovecat` with neither `N` nor `S`: the default of one step is set by an `if` whose `else` belongs to the next `if` and ends in `assert False` | C87_steps_violated |
| C87 | `transition_lovecat` of a State with a categorical column of which no value is observed fails with an AssertionError, since the number of categories handed to Lovecat is that of the observed ones | C87_missing_violated |
| C88 | `kldiv` with one neighbour (and every estimate with none) raises IndexError for all samples: asked for one neighbour, scipy's search returns a number, which the code indexes | C88_one_violated |
| C89 | the Loom project is written once: after `force_cell`, `incorporate` or a change of type, Loom still runs on the old files and its sample is installed without complaint | C89_stale_violated |
| C89 | a Loom project is named after the time in seconds and an existing directory is used again: two States whose projects are created within a second share the files of the second | C89_clash_violated |
| C90 | `logp_crp_fresh` with a concentration that is an integer less than the number of auxiliary tables: Python 2 divides to 0, no new table has positive probability | C90_integer_violated |
| C90 | `log_nCk(0, k)` is 0, the logarithm of one, for k > 0 | C90_choose_violated |
| C91 | `incorporate_bulk` and `force_cell_bulk` with lists of different lengths ignore the surplus rows or numbers without an error | C91_surplus_violated, C91_force_surplus_violated |
| C92 | separation 0, documented as allowed, raises ZeroDivisionError for a column of angles; a column of zeros and ones with one cluster is 0 throughout; a given partition of the columns with labels not counted from zero raises IndexError | C92_separation_violated, C92_single_violated, C92_labels_violated |

### 5.2 Seen while reading, not (yet) theorems

* `transition_engine` by Loom without `N` hands `None` over as the number of passes; the default of 1 is set
  for a single State only.
* `State.incorporate_dim` does not check the outputs of composed models; afterwards every composite
  query and `decompose_cgpm` raise ValueError. (Histories in C43 exclude such calls.)
* `unincorporate_dim` of a column that is the input of a conditional column leaves a dangling input.
* `force_cell` on an input column leaves the conditional column's statistics stale.
* `Dim.incorporate` creates an empty cluster even when it raises.
* `View.logpdf` and the Engine's weighted integration pass `inputs` where `constraints` are expected.
* `mh_sample` with a domain (l, inf), l > 0: a proposal below l raises AssertionError; a uniform draw
  of exactly 0 raises ValueError. (`C44` states what is proposed and accepted, `C75` which density the
  iterations leave invariant.)
* `NormalTrunc.calc_log_prior` uses a uniform density over (0, l+h).
* `to_metadata` does not store the parameters of uncollapsed components (beta, normal_trunc); restored
  components draw new ones.
* `incorporate_dim` with a conditional type without inputs raises after the State has been changed; it
  keeps the caller's list as its column (changes by the caller reach the State).
* A State without rows cannot be constructed (log(0) in the grids).
* A row partition of the wrong length is accepted by `View` outside debug mode.
* The network ignores constraints on variables that nothing produces.
* `State.relevance_probability` with an unknown row leaves the hypothetical rows in the State; with
  an input column in another view it raises IndexError.
* `log_pflip` of weights that are all `-inf` returns NaN probabilities.
* `validate_cgpms` accepts negative positions; `transition_view_rows` does nothing for one row.
* `linreg`'s `input_to_code_index` mixes identifiers and positions; `_predictor_count` reads an
  unbound variable for a nominal input without a count.
* OLS `simulate` returns the mean without noise although `logpdf` is Gaussian.
* `sampling.view_logpdf` ignores constraints for observed rows.
* `dependence_probability_pairwise` and `row_similarity` return NaN or wrong shapes for empty or
  repeated column lists.
* RandomForest.from_metadata puts the list `counts` of the metadata, which is the list of the original object, into the copy: if the metadata is not written and read in between, later calls on one change the counts of the other.
* OLS.from_metadata and RandomForest.from_metadata put the unpickled regressor into the metadata they are given, which can then not be written as JSON.

## 6. Checking

`cd lean && lake build`, then `tools/audit.sh`. It prints the axioms of every claimed theorem that
depends on anything but `propext`, `Classical.choice` and `Quot.sound`; it is silent when there is
none.

The last round of edits left five that no theorem rejects; nothing was tightened for them.

* `parseDistargs` with the arguments in reverse order: a gap. C84 covers lists of one type, the only ones
  `parse_schema` passes.
* `cctypeClass` with a KeyError for the empty name: no theorem states which error that is.
* `covarianceFactor` without its fallback: C83 is about positive definite covariances only.
* `typesOk` with a missing column counted as supported: not reached, as every exported column exists.
* `betaLogPrior` with `log balance` for `log (1 - balance)`: the factor is 0 at the parameters the code uses.

The rest of that round (`normalTruncLogPrior`, `proportionDone`, `crosscatMc`) was not run.
