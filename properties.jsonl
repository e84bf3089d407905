{"id": "C01", "title": "CRP table counts always match the seated customers", "statement": "After any sequence of incorporate/unincorporate calls on a Chinese-restaurant process (accepted or refused), the customer-to-table map is exactly the one obtained by replaying the accepted calls, every reported table count equals the number of customers currently seated there, N equals the number of seated customers, and a table is listed if and only if somebody sits at it. A refused call changes nothing.", "quantifier": "every finite history of incorporate(rowid, table) / unincorporate(rowid) calls, any row ids, any table ids", "why_tests_cant": "Counts are updated incrementally; a drift can need an arbitrary interleaving of seatings and removals to show up.", "anchors": ["src/primitives/crp.py: Crp.incorporate, Crp.unincorporate", "src/primitives/distribution.py: DistributionGpm.incorporate"]}
{"id": "C02", "title": "CRP predictive is a probability distribution", "statement": "For every reachable CRP state with positive concentration, exponentiating logpdf of an unseated customer over all occupied tables plus one fresh table gives positive numbers that sum to 1, every unoccupied table label gets the same fresh-table value, and a seated customer has density 1 at its own table and 0 elsewhere.", "quantifier": "every reachable CRP state, every alpha > 0, every query row and table", "why_tests_cant": "Normalisation is a statement about all reachable count vectors and real alphas; a test checks a handful of floats up to a tolerance.", "anchors": ["src/primitives/crp.py: Crp.logpdf, Crp.simulate, Crp.calc_predictive_logp"]}
{"id": "C03", "title": "CRP score is the product of predictives and is exchangeable", "statement": "logpdf_score of a CRP increases by exactly the predictive logpdf of the seated table when a customer is incorporated, decreases by the predictive of the remaining state when one is removed, and two histories that end in the same seating (or in seatings that differ only by renaming customers and tables) have the same score.", "quantifier": "every history, every alpha > 0, every permutation of customers and injective relabelling of tables", "why_tests_cant": "It is an identity between Gamma-function expressions for all counts and all orders.", "anchors": ["src/primitives/crp.py: Crp.logpdf_score, Crp.calc_logpdf_marginal, Crp.calc_predictive_logp", "src/utils/general.py: logp_crp"]}
{"id": "C04", "title": "CRP Gibbs proposals are the conditional of the row given the rest", "statement": "For a seated row, gibbs_tables lists without repetition every occupied table plus fresh ones, exactly m of the listed tables being empty once the row is removed, and exp(gibbs_logps) of each listed table is proportional (one constant) to the predictive probability of that table after unincorporating the row, the fresh mass alpha being split evenly over m auxiliary tables.", "quantifier": "every reachable CRP state, every seated row, every m >= 1, every alpha > 0", "why_tests_cant": "The singleton special case and the auxiliary count only matter for some partitions; all of them must be right for the sampler to be correct.", "anchors": ["src/primitives/crp.py: Crp.gibbs_logps, Crp.gibbs_tables, Crp.singleton", "src/utils/general.py: logp_crp_gibbs, logp_crp_fresh"]}
{"id": "C05", "title": "Component sufficient statistics equal the sums over the current data", "statement": "For every primitive distribution (bernoulli, categorical, poisson, geometric, exponential, normal, lognormal, vonmises, normal_trunc, beta) and any history of incorporate/unincorporate calls, the reported sufficient statistics are exactly (in exact arithmetic) the sums over the rows currently incorporated, so they do not depend on the order or on rows that came and went.", "quantifier": "every history of incorporate/unincorporate, every value sequence, ten distributions", "why_tests_cant": "The statistics are maintained by += and -= and never recomputed; equality must survive every history.", "anchors": ["src/primitives/*.py: incorporate, unincorporate, get_suffstats"]}
{"id": "C06", "title": "Components refuse values outside their support and never half-apply", "statement": "incorporate raises for a value outside the support or a row already present, unincorporate raises for an unknown row, and in both cases data and statistics are unchanged; logpdf of a value is minus infinity exactly when incorporate would refuse the value.", "quantifier": "every component state, row and value", "why_tests_cant": "Quantifies over all values and states, including boundary values.", "anchors": ["src/primitives/*.py: incorporate, logpdf"]}
{"id": "C07", "title": "Predictive density equals the ratio of marginal likelihoods", "statement": "For each collapsed primitive the logpdf of a new supported value equals logpdf_score after incorporating it minus logpdf_score before; hence logpdf_score of a data set is the sum of one-step-ahead predictives in any order and is independent of the order of incorporation.", "quantifier": "every reachable component state, every supported value, every admissible hyperparameter setting", "why_tests_cant": "An identity between special-function expressions over all real hyperparameters and data sets.", "anchors": ["src/primitives/{bernoulli,categorical,poisson,geometric,exponential,normal,lognormal,vonmises}.py: calc_predictive_logp, calc_logpdf_marginal"]}
{"id": "C08", "title": "Component predictives normalise", "statement": "For bernoulli, categorical, geometric and poisson components the exponentiated logpdf over the whole support sums to 1, and for exponential, normal and lognormal components it integrates to 1, for every reachable component state and every positive hyperparameter setting.", "quantifier": "every reachable state, every positive hyperparameters, infinite supports included", "why_tests_cant": "An infinite sum over the support cannot be tested, only truncated.", "anchors": ["src/primitives/bernoulli.py", "src/primitives/categorical.py", "src/primitives/geometric.py", "src/primitives/poisson.py", "src/primitives/exponential.py", "src/primitives/normal.py", "src/primitives/lognormal.py"]}
{"id": "C09", "title": "Normal components never take the log of a non-positive posterior scale", "statement": "For every data set and admissible hyperparameters the posterior scale used by the normal (and lognormal) component is at least the prior scale s, hence positive, and the special case that replaces a zero scale is never taken.", "quantifier": "every finite data set, all real m, all r, s, nu > 0", "why_tests_cant": "Cauchy-Schwarz over all data sets; a test can only sample.", "anchors": ["src/primitives/normal.py: Normal.posterior_hypers, calc_log_Z"]}
{"id": "C10", "title": "A Dim files every row exactly once and keeps clusters exact", "statement": "After any history of incorporate/unincorporate on a Dim, every incorporated row is recorded in exactly one of the observed/missing maps with the cluster it was given, each cluster's component holds exactly the observed rows assigned to it with the corresponding values, missing rows contribute to no component, and refused calls leave this intact.", "quantifier": "every history of Dim.incorporate/unincorporate with any rows, clusters, values and missing cells", "why_tests_cant": "Depends on arbitrary interleavings of missing and observed cells and of clusters being created and emptied.", "anchors": ["src/mixtures/dim.py: Dim.incorporate, Dim.unincorporate, Dim.preprocess"]}
{"id": "C11", "title": "A View stays internally consistent over any history", "statement": "After any sequence of legal (accepted) row incorporations (cluster given or sampled), row removals, cell forcing, dim additions and removals and row Gibbs transitions with any random outcomes, every dim agrees with the row partition on every row, every dim has exactly the occupied clusters, and each cluster's component is exact for the rows assigned to it.", "quantifier": "every history of View operations and every outcome of every random draw", "why_tests_cant": "The debug-only _check_partitions tests the states a run visits; the claim is for all histories and all random outcomes.", "anchors": ["src/mixtures/view.py: incorporate, unincorporate, force_cell, incorporate_dim, unincorporate_dim, _gibbs_transition_row, _migrate_row, _check_partitions"]}
{"id": "C12", "title": "Adding a row to a View and removing it restores every observable", "statement": "Incorporating a fresh row into a consistent View and then unincorporating it gives back the same row partition, table counts, cluster contents and statistics, and therefore the same scores and densities.", "quantifier": "every consistent View, every fresh row, every observation, cluster given or sampled", "why_tests_cant": "Must hold for every state and every sampled cluster.", "anchors": ["src/mixtures/view.py: View.incorporate, View.unincorporate"]}
{"id": "C13", "title": "Scoring a row for Gibbs does not change the View", "statement": "Evaluating the Gibbs probabilities of a row, which temporarily removes the row's cells, leaves every observable of the View unchanged, and a row transition changes at most that row's cluster: the data and all other rows' assignments are untouched.", "quantifier": "every consistent View, every row, every random outcome", "why_tests_cant": "A leaked temporary removal shows only in particular cluster configurations.", "anchors": ["src/mixtures/view.py: _logpdf_cell_gibbs, _logpdf_row_gibbs, _gibbs_transition_row, _migrate_row"]}
{"id": "C14", "title": "Row Gibbs weights are proportional to the joint score", "statement": "For any row of a consistent View and any two candidate clusters, the difference of the log weights used by the row transition equals the difference of View.logpdf_score between the Views in which the row sits in those clusters; hence the transition leaves the posterior invariant.", "quantifier": "every consistent View built from collapsed components, every row, every pair of candidate clusters", "why_tests_cant": "Correctness of an MCMC kernel is an exact identity over all states; statistical tests detect only gross errors.", "anchors": ["src/mixtures/view.py: _gibbs_transition_row, logpdf_score", "src/primitives/crp.py: gibbs_logps"]}
{"id": "C15", "title": "View density queries are mixtures consistent with Bayes' rule", "statement": "For a hypothetical row, exp(logpdf(targets | constraints)) equals the mixture over occupied clusters plus one fresh cluster of the product of per-column predictives, renormalised by the same mixture for the constraints; hence p(targets, constraints) = p(targets | constraints) p(constraints), conditioning on the cluster gives the product of the per-column predictives, and marginal and conditional answers agree.", "quantifier": "every consistent View, every set of targets and constraints", "why_tests_cant": "Coherence of all marginals and conditionals is a statement about every query pair.", "anchors": ["src/mixtures/view.py: View.logpdf", "src/crosscat/sampling.py: view_logpdf, _logpdf_row", "src/network/importance.py: ImportanceNetwork.logpdf"]}
{"id": "C16", "title": "The fast query path agrees with the network path", "statement": "For every hypothetical row, the log density computed by the optimised crosscat sampler for one view equals the log density computed by View.logpdf through the importance network, and State.logpdf is the sum over views, so variables in different views are independent.", "quantifier": "every consistent State without composed models, every query", "why_tests_cant": "Two implementations must agree on all inputs.", "anchors": ["src/crosscat/sampling.py: state_logpdf, view_logpdf", "src/mixtures/view.py: View.logpdf"]}
{"id": "C17", "title": "Density queries over discrete columns are normalised", "statement": "For a discrete column with finite support, the exponentiated densities returned for each possible value given any constraints of positive density sum to 1.", "quantifier": "every consistent View/State, every finite-support column, every constraint set of positive density", "why_tests_cant": "Quantifies over every constraint set and every state.", "anchors": ["src/crosscat/sampling.py: view_logpdf", "src/mixtures/view.py: View.logpdf"]}
{"id": "C18", "title": "A State's column partition, views and data stay consistent over any history", "statement": "After any sequence of accepted row/column additions and removals, forced cells and transitions with any random outcomes, each output column belongs to exactly one view, that view models it, no view is empty, every view's row partition covers exactly the rows of the data, and all columns have the same length.", "quantifier": "every history of State operations, every outcome of every random draw", "why_tests_cant": "The debug check only inspects visited states; the claim ranges over all histories.", "anchors": ["src/crosscat/state.py: incorporate, unincorporate, incorporate_dim, unincorporate_dim, force_cell, _gibbs_transition_dim, _migrate_dim, _check_partitions"]}
{"id": "C19", "title": "Rejected State updates leave no trace", "statement": "If incorporate, unincorporate, incorporate_dim, unincorporate_dim or force_cell raises, the State is exactly as before the call.", "quantifier": "every State, every argument", "why_tests_cant": "Needs every raising path; the tests exercise a few of them and do not compare the whole state.", "anchors": ["src/crosscat/state.py: incorporate, incorporate_dim, unincorporate_dim, unincorporate, force_cell", "src/mixtures/view.py: incorporate"]}
{"id": "C20", "title": "Appending a row and removing it is the identity on a State", "statement": "State.incorporate of the next row followed by State.unincorporate of that row restores the data, all row partitions, counts, statistics and hence every query answer; unincorporate accepts only the last row and never removes the only row.", "quantifier": "every consistent State, every observation, every random outcome", "why_tests_cant": "All states and all sampled clusters.", "anchors": ["src/crosscat/state.py: State.incorporate, State.unincorporate"]}
{"id": "C21", "title": "Column transitions respect independence constraints", "statement": "A column Gibbs transition never puts two columns declared independent into the same view, and columns declared dependent are never separated.", "quantifier": "every State, every constraint set, every random outcome", "why_tests_cant": "Violations depend on the internal order of views, which only some histories produce.", "anchors": ["src/crosscat/state.py: _gibbs_transition_dim, transition_dims, incorporate_dim"]}
{"id": "C22", "title": "Constrained column initialisation satisfies the constraints", "statement": "Every partition that the constrained CRP initialisers can return, for any random outcomes, assigns a table to every column, puts all columns of a dependence block together and separates every independent pair; no valid constraint set makes initialisation fail.", "quantifier": "every N, every accepted (Cd, Ci), every random outcome", "why_tests_cant": "The random draws must be covered exhaustively.", "anchors": ["src/utils/general.py: simulate_crp_constrained, simulate_crp_constrained_dependent", "src/utils/validation.py: validate_crp_constrained_partition"]}
{"id": "C23", "title": "Constraint validation accepts only satisfiable constraints", "statement": "validate_dependency_constraints accepts exactly the constraint sets whose blocks are non-singleton, in range and pairwise disjoint and whose independence pairs are in range, distinct and not inside a block; every accepted set is satisfied by some partition.", "quantifier": "every N, Cd, Ci", "why_tests_cant": "Soundness and completeness of a validator over all inputs.", "anchors": ["src/utils/validation.py: validate_dependency_constraints, check_compatible_customers"]}
{"id": "C24", "title": "The dependent-CRP score is the CRP score of the blocks", "statement": "logp_crp_constrained_dependent is minus infinity exactly when the partition breaks a dependence block; otherwise it equals the ordinary CRP score of the partition in which each block counts as one customer, and the effective number of customers equals the sum of the effective counts.", "quantifier": "every partition, every family of disjoint non-empty blocks, every alpha > 0", "why_tests_cant": "All partitions and block families.", "anchors": ["src/utils/general.py: logp_crp_constrained_dependent, get_crp_constrained_num_effective, get_crp_constrained_partition_counts"]}
{"id": "C25", "title": "Topological sorting is correct and detects exactly the cycles", "statement": "topological_sort returns each node exactly once with all its in-graph parents before it, and raises if and only if the graph has a directed cycle; it terminates on every input.", "quantifier": "every finite adjacency dictionary, any iteration order", "why_tests_cant": "All graphs; termination of a while loop.", "anchors": ["src/network/helpers.py: topological_sort"]}
{"id": "C26", "title": "Composite networks are well formed or refused", "statement": "Building a network refuses a component with no outputs, a variable produced by two components, or a cyclic dependency, and accepts everything else; in an accepted network each variable has one producer that is evaluated after the producers of all its inputs.", "quantifier": "every list of components", "why_tests_cant": "All network shapes.", "anchors": ["src/network/helpers.py: validate_cgpms, retrieve_variable_to_cgpm, retrieve_adjacency_list", "src/network/importance.py: ImportanceNetwork.__init__"]}
{"id": "C27", "title": "Importance sampling supplies every required input and weights correctly", "statement": "In a weighted sample every component that is queried or constrained receives a value for each of its inputs that some component produces, constraint values are never overwritten, the sample contains exactly the constraints, the targets and the required inputs, and the log weight is the sum of the log densities of the constrained components; with no constraints the weight is zero.", "quantifier": "every accepted network, every query, every random outcome", "why_tests_cant": "All network shapes, queries and draws.", "anchors": ["src/network/importance.py: weighted_sample, invoke_cgpm, retrieve_required_inputs"]}
{"id": "C28", "title": "Dependence probability reflects the view partition", "statement": "dependence_probability of two columns of the State is 1 if they share a view and 0 otherwise; it is reflexive, symmetric and transitive, the pairwise matrix is symmetric with unit diagonal and agrees entrywise, and for composed variables 0 is returned only if no ancestor is shared and no ancestors share a view.", "quantifier": "every State, every pair of columns, every composed network", "why_tests_cant": "All partitions and networks.", "anchors": ["src/crosscat/state.py: dependence_probability, dependence_probability_pairwise, _dependence_probability_composite", "src/network/helpers.py: retrieve_ancestors"]}
{"id": "C29", "title": "Row similarity is the fraction of views agreeing on two rows", "statement": "row_similarity lies in [0,1], is symmetric, equals 1 for identical rows, and equals the fraction of the distinct views containing the requested columns in which the rows share a cluster; the pairwise matrix is symmetric with unit diagonal.", "quantifier": "every State, pair of rows, column subset", "why_tests_cant": "All partitions.", "anchors": ["src/crosscat/state.py: row_similarity, row_similarity_pairwise"]}
{"id": "C30", "title": "Relevance queries do not disturb the model", "statement": "State.relevance_probability and the view-level relevance computation, which temporarily add or remove rows, leave data, partitions, counts and statistics unchanged when they return, and the view-level answer lies in [0,1]. With the debug checks on (GPMCCDEBUG) the assertions hold and the answer is the same: the cases in which the target is with the query rows and those in which it is apart add up to the normalizing constant.", "quantifier": "every State, every target/query rows, every hypothetical rows, every random outcome", "why_tests_cant": "All states and all temporary rows.", "anchors": ["src/crosscat/state.py: relevance_probability", "src/mixtures/relevance.py: relevance_probability, logpdf_assignments, logpdf_assignments_marginalize_target, get_tables_different"]}
{"id": "C31", "title": "parallel_map equals map under every schedule", "statement": "For every interleaving of the worker processes and the parent, if parallel_map returns, its result is the list of f applied to each element in order; if some task fails it raises; no reachable non-final state is stuck. The bytes of the return pipe are read back as the numbers that were written, in order.", "quantifier": "every list, every worker count >= 1, every interleaving of worker and parent steps, any set of tasks that fail by raising an Exception", "why_tests_cant": "Schedules cannot be enumerated by tests.", "anchors": ["src/utils/parallel_map.py: parallel_map"]}
{"id": "C32", "title": "The inference loop runs exactly what was asked", "statement": "With an iteration budget N every kernel runs exactly N times in the given order, with a time budget the loop stops before the first kernel at which the budget is used up, so kernels' run counts differ by at most one and decrease along the list; diagnostics are recorded exactly floor(N/checkpoint) times, after complete sweeps only.", "quantifier": "every kernel list, N, S, checkpoint, every monotone clock", "why_tests_cant": "All clocks and budgets.", "anchors": ["src/crosscat/state.py: _transition_generic, _increment_iterations, transition"]}
{"id": "C33", "title": "Engine operations apply to each state independently and in place", "statement": "Engine queries return one answer per requested state, in the order of the request, and change nothing; Engine updates replace exactly the requested states by the updated ones and leave the others alone, in the same process and in parallel ones; alter applies its functions in order; compose_cgpm gives the i-th model to the i-th state; add_state and drop_state change only the list of states; an index that denotes no state, and an operation that raises in one state, leave everything unchanged; what the states' own operations keep, every history of Engine operations keeps in every state.", "quantifier": "every list of states, every request, every operation, every history", "why_tests_cant": "All selections and operations; an empty selection is a boundary the tests miss.", "anchors": ["src/crosscat/engine.py: Engine.transition, alter, logpdf, incorporate, compose_cgpm, add_state, drop_state, get_state"]}
{"id": "C34", "title": "State and Engine serialization round-trips", "statement": "from_metadata(to_metadata(s)) has the same data, outputs, column partition, row partitions, concentrations, hyperparameters, constraints and component statistics as s, so later queries give the same answers; a View, a State with composed models and an Engine round-trip likewise, with the same row numbers, tokens and is_composite flag.", "quantifier": "every State, View, composition and Engine that a history of calls produces, every order of dictionaries and sets", "why_tests_cant": "All histories, including those that remove rows, columns and models and reorder rows or views.", "anchors": ["src/crosscat/state.py: to_metadata, from_metadata, __init__", "src/mixtures/view.py: to_metadata, from_metadata", "src/crosscat/engine.py: to_metadata, from_metadata"]}
{"id": "C35", "title": "Log-space arithmetic helpers compute what they claim", "statement": "logsumexp, log_normalize, logmeanexp and logmeanexp_weighted equal the logarithms of the sum, normalised vector, mean and weighted mean of the exponentials, including minus-infinity entries; logsumexp never exponentiates a positive number.", "quantifier": "every finite list of extended reals (no NaN)", "why_tests_cant": "Exact identities for all inputs and the corner cases of infinities.", "anchors": ["src/utils/general.py: logsumexp, log_normalize, logmeanexp, logmeanexp_weighted"]}
{"id": "C36", "title": "Random categorical draws come from the support", "statement": "log_pflip returns an element of the given array whose log probability is not minus infinity, each with probability proportional to exp(logp); simulate with N returns exactly N samples each with exactly the requested variables.", "quantifier": "every weight vector, every random outcome, every N", "why_tests_cant": "All outcomes.", "anchors": ["src/utils/general.py: log_pflip, pflip, simulate_many", "src/mixtures/view.py: simulate", "src/crosscat/sampling.py: view_simulate"]}
{"id": "C37", "title": "Query partitioning by view loses nothing", "statement": "partition_list and partition_dict split a query into one part per view, each variable (with its value) appears in exactly the part of its view, order is preserved within a part, and there are no empty parts.", "quantifier": "every assignment and query", "why_tests_cant": "All inputs.", "anchors": ["src/utils/validation.py: partition_list, partition_dict, partition_query_evidence"]}
{"id": "C38", "title": "Dummy coding is injective and of fixed width", "statement": "dummy_code maps rows of k-level categorical and numeric inputs to vectors of the declared width, is injective on valid rows, and rejects out-of-range categories; the covariates kept by a linear or least-squares regression always have the declared width.", "quantifier": "every level table, every row", "why_tests_cant": "All rows and level tables.", "anchors": ["src/utils/data.py: dummy_code", "src/regressions/linreg.py: _predictor_count, preprocess", "src/regressions/ols.py"]}
{"id": "C39", "title": "Weighted resampling in the Engine conserves samples", "statement": "The engine's likelihood-weighted resampling of N samples per requested state returns exactly N samples; each comes from the sample list of a state with positive weight, as many from a state as it was drawn, without duplicating an index within a state; the weights are the densities of the constraints in the requested states (equal without constraints). Likelihood-weighted integration returns the logarithm of the weighted mean density.", "quantifier": "every list of sample lists, every weight, every random outcome", "why_tests_cant": "All outcomes.", "anchors": ["src/crosscat/engine.py: _likelihood_weighted_resample, _likelihood_weighted_integrate"]}
{"id": "C40", "title": "Lovecat conversion preserves the latent partition", "statement": "Importing a lovecat latent state that fits the State installs exactly the column partition, row partitions and concentrations it lists, keeps data and outputs and yields a consistent State, or changes nothing when a column type is not supported; exporting a State and importing the unchanged result gives back the same column partition, row partitions and concentrations.", "quantifier": "every reachable State and every fitting latent state", "why_tests_cant": "Depends on internal row order, which some histories permute.", "anchors": ["src/crosscat/lovecat.py: _crosscat_X_D, _update_state"]}
{"id": "C41", "title": "Loom import installs exactly the imported partition", "statement": "Importing a Loom sample moves every column to the view prescribed by the sample with the prescribed row partition, deletes all old views, keeps data and outputs, and yields a State that a constructor call could have built; a sample that does not fit is refused. The names given to columns in Loom files are read back as the same columns.", "quantifier": "every consistent State and every compatible Loom sample", "why_tests_cant": "All samples.", "anchors": ["src/crosscat/loomcat.py: _update_state"]}
{"id": "C42", "title": "Row bookkeeping of stand-alone CGPMs is exact", "statement": "For the KDE, KNN, factor-analysis, linear-regression, OLS and random-forest models, after any history of incorporate/unincorporate the stored rows are exactly those of the accepted calls replayed and N equals their number; a call is accepted exactly when its row and observation are admissible; refused calls change nothing.", "quantifier": "every history", "why_tests_cant": "All histories.", "anchors": ["src/kde/mvkde.py", "src/knn/mvknn.py", "src/factor/factor.py", "src/regressions/linreg.py", "src/regressions/ols.py", "src/regressions/forest.py"]}
{"id": "C43", "title": "Composition with foreign models is transactional", "statement": "compose_cgpm either succeeds, returning a token never returned before, or raises and leaves the composition unchanged; decompose_cgpm of that token restores the previous composition; is_composite is true exactly when something is composed or a conditional column exists.", "quantifier": "every State, every sequence of compose/decompose calls", "why_tests_cant": "All histories of composition.", "anchors": ["src/crosscat/state.py: compose_cgpm, decompose_cgpm, _update_is_composite"]}
{"id": "C44", "title": "MCMC helper samplers stay inside their domain", "statement": "mh_sample and slice_sample return a point inside the declared domain whenever started inside it, and refuse a start outside; a proposal of zero density is never accepted; the slice interval always contains the current point, and the point a slice step moves to lies on the slice; rejection_sample returns only points its target accepts; hence the parameter transitions of the beta and truncated normal primitives keep their parameters in range (strength positive and balance strictly between 0 and 1; mean within the bounds and scale positive).", "quantifier": "every density, domain, start, every random outcome", "why_tests_cant": "All random outcomes.", "anchors": ["src/utils/sampling.py: mh_sample, slice_sample, rejection_sample", "src/primitives/beta.py: Beta.transition_params", "src/primitives/normal_trunc.py: NormalTrunc.transition_params"]}
{"id": "C45", "title": "Conditioning on an observed row uses exactly that row's observed cells", "statement": "For a query about an existing row the constraints used are the user's constraints together with every observed cell of that row that is neither a target nor a user constraint; contradicting an observed cell is refused.", "quantifier": "every State/View, row, query", "why_tests_cant": "All rows and queries; a skipped column is invisible unless it matters.", "anchors": ["src/crosscat/state.py: _populate_constraints, _validate_cgpm_query", "src/mixtures/view.py: _populate_constraints, _validate_cgpm_query"]}
{"id": "C46", "title": "Hyperparameters are shared by all clusters of a column", "statement": "After any sequence of row updates and hyperparameter transitions every cluster of a column, and the template used for new clusters, has the column's hyperparameters.", "quantifier": "every history, every random outcome", "why_tests_cant": "A stale template shows only when a new cluster is opened later.", "anchors": ["src/mixtures/dim.py: transition_hypers, transition_hyper_grids, set_hypers, incorporate, create_aux_model"]}
{"id": "C47", "title": "Mutual-information queries decompose over independent blocks", "statement": "The query is split so that each requested column and constraint is in exactly one block, no block mixes columns of different connected components, and columns in different components contribute zero; for a State without composed models splitting the query by views is exact. Each block is estimated by the mean log density ratio of simulated rows (by minus the mean log density when the two targets are the same) given the constraints, averaged over values of the marginalised variables drawn given the equality constraints. Targets that are constrained or partly overlap are refused.", "quantifier": "every network and query", "why_tests_cant": "All networks.", "anchors": ["src/crosscat/state.py: mutual_information, _partition_mutual_information_query", "src/network/helpers.py: retrieve_weakly_connected_components"]}
{"id": "C48", "title": "Queries of a factor analysis are the exact conditional densities of its generative model", "statement": "Reindexing is a bijection of the variables onto the joint vector, factors first. logpdf is the log of the conditional density of the targets given the constraints and the observed cells of the row under z ~ N(0,I), x = mux + W z + e, e ~ N(0,Psi): it obeys the chain rule, integrates to one, integrating a target out gives the answer without it, and the order of targets and constraints is irrelevant; the factors given the observables have the textbook posterior. simulate asks for a normal draw with that same density and pairs each target with its coordinate. Bad queries are refused.", "quantifier": "every outputs list, latent dimension, parameters with positive definite noise, row, targets and constraints", "why_tests_cant": "Exact linear algebra and integrals over all matrices.", "anchors": ["src/factor/factor.py: __init__, logpdf, simulate, populate_constraints, reindex, joint_parameters, mvn_condition, transition", "src/utils/mvnormal.py: logpdf, conditional"]}
{"id": "C49", "title": "Discrete entropy estimators are coherent", "statement": "The histogram gives the frequencies and sums to 1; the discrete entropy estimate is the entropy of the frequencies, lies between 0 and the logarithm of the number of distinct values, and does not change when the sample is permuted or renamed; the mutual-information estimates, conditional or not, are non-negative, zero exactly for empirically (conditionally) independent samples, and symmetric, and obey the chain rule.", "quantifier": "every sample", "why_tests_cant": "All samples.", "anchors": ["src/utils/entropy_estimators.py: hist, entropyd, midd, cmidd"]}
{"id": "C50", "title": "Changing a column's statistical type keeps the data and partition", "statement": "update_cctype replaces only the distribution family and hyperparameters of that column: the data, row partition, column partition and all other columns are unchanged and the column's new components are exact for the existing partition; if the data are not in the new support the call raises.", "quantifier": "every consistent View/State, column and type", "why_tests_cant": "All states.", "anchors": ["src/mixtures/view.py: update_cctype, incorporate_dim, _bulk_incorporate", "src/crosscat/state.py: update_cctype"]}
{"id": "C51", "title": "A rejected View update leaves no trace", "statement": "A row update that a View refuses (a row already there, a row that is not there, a value outside the support of a column) leaves the view as it was.", "quantifier": "every reachable View, every refused update", "why_tests_cant": "All states and all refusals; the damage shows only in later calls.", "anchors": ["src/mixtures/view.py: incorporate, unincorporate, incorporate_dim, update_cctype", "src/mixtures/dim.py: incorporate"]}
{"id": "C52", "title": "Column transitions weigh views by the joint probability", "statement": "In a column Gibbs transition the log weight of each candidate view is, up to one constant, the log probability of the column partition plus the log likelihood of the data in the State that results from choosing it; candidates holding a column declared independent have weight zero.", "quantifier": "every State, column, number of auxiliary views and outcome of their draws", "why_tests_cant": "The weights must be exact for every partition; a wrong weight still yields valid-looking samples.", "anchors": ["src/crosscat/state.py: _gibbs_transition_dim, _dim_get_data_logp, _migrate_dim"]}
{"id": "C53", "title": "Ancestors and descendents in a network are exact", "statement": "retrieve_ancestors and retrieve_descendents list exactly the variables that reach, or are reached from, the queried variable through the inputs of components; the two are converse to each other, no variable is its own ancestor, and a variable that the network does not produce is refused.", "quantifier": "every well formed network and variable", "why_tests_cant": "All graphs.", "anchors": ["src/network/helpers.py: retrieve_ancestors, retrieve_descendents"]}
{"id": "C54", "title": "Simulated rows follow the reported joint distribution", "statement": "simulate of a State returns exactly N rows, each assigning a value to exactly the targets; the clusters and values are drawn with the law that logpdf reports for the same evidence; the N rows of one call are independent draws of that law; a query without targets still returns N (empty) rows.", "quantifier": "every State without conditional columns, row, targets, evidence, N and every random outcome", "why_tests_cant": "A distributional statement over all queries; coupling between rows of a batch is invisible in marginal goodness-of-fit tests.", "anchors": ["src/crosscat/state.py: simulate", "src/crosscat/sampling.py: state_simulate, view_simulate, _simulate_row", "src/utils/general.py: log_pflip, simulate_many"]}
{"id": "C55", "title": "Queries of a linear regression are those of the conjugate Bayesian linear model", "statement": "Under precision ~ Gamma(a, rate b), coefficients ~ N(mu, V/precision) and values ~ N(coefficients . covariates, 1/precision): logpdf_score is the log of the marginal density of the observed rows; logpdf of a new row is the log of its predictive density, it integrates to one, and the score obeys the chain rule; no answer depends on the order or history of the rows; simulate draws the parameters from their posterior and the value given them, so its density is what logpdf reports; an observed row is simulated by its value; bad queries are refused.", "quantifier": "every schema, proper prior, history of row updates and hyperparameter changes, row, value and inputs without missing values", "why_tests_cant": "Exact integrals over all priors, designs and histories.", "anchors": ["src/regressions/linreg.py: __init__, incorporate, unincorporate, logpdf, simulate, logpdf_score, simulate_params, set_hypers, calc_predictive_logp, calc_logpdf_marginal, posterior_hypers, calc_log_Z, sample_parameters"]}
{"id": "C56", "title": "Hyperparameter grids built from data hold only admissible values", "statement": "For a column of any type with at least one observed value, construct_hyper_grids answers one non-empty grid for each hyperparameter of the type, and whatever entries are chosen, set_hypers and the constructor accept them; likewise for the concentration of a partition and for a linear regression. log_linspace goes from its first to its last end with a constant ratio. Without observed values the call raises.", "quantifier": "every type, data in its support, grid size and choice of entries", "why_tests_cant": "All data sets; an inadmissible entry shows only in the rare run that draws it.", "anchors": ["src/primitives/*.py: construct_hyper_grids, set_hypers", "src/regressions/linreg.py: construct_hyper_grids", "src/utils/general.py: log_linspace", "src/primitives/crp.py: construct_hyper_grids"]}
{"id": "C57", "title": "Hyperparameter inference is exact Gibbs sampling on the grids", "statement": "transition_hypers never raises on a column with a full set of admissible hyperparameters; it leaves the data and the clusters as they were and gives every cluster, and the template of new ones, the new hyperparameters, each an entry of its grid. Each hyperparameter is redrawn with probability proportional to the marginal likelihood of the column's data given the current values of the others, so that the posterior distribution on the grids is invariant. The same holds for the concentration of a partition and for the hyperparameters of a linear regression. Building the grids draws first values for a column that has none and otherwise keeps those given.", "quantifier": "every column type, clusters, admissible hyperparameters, visiting order and random draw", "why_tests_cant": "A distributional statement over all data; a wrong weight or a stale cluster still yields valid-looking hyperparameters.", "anchors": ["src/mixtures/dim.py: transition_hypers, transition_hyper_grids, create_aux_model", "src/regressions/linreg.py: transition_hypers", "src/utils/general.py: log_pflip"]}
{"id": "C58", "title": "Inference over rows is Gibbs sampling from the posterior over row partitions", "statement": "The score of a view depends on the partition of its rows only, not on the labels of its clusters. transition_rows over any rows of a view does not raise; it keeps data, rows, concentration, columns and hyperparameters, leaves the view consistent and moves no row it was not asked to move. Each row is reseated with probability proportional to the posterior weight (prior of the partition times likelihood of the data) of the resulting partition, given the seats of the other rows, so that the posterior over partitions is invariant under a pass over the rows in any order. A row the view does not have is refused and nothing changes.", "quantifier": "every catalogue of collapsed types, data set, reachable view, order of rows, random draw and function of the partition", "why_tests_cant": "A distributional statement over all data and all histories; a wrong weight still yields valid-looking partitions.", "anchors": ["src/mixtures/view.py: transition_rows, _gibbs_transition_row, _logpdf_row_gibbs, _migrate_row, logpdf_score", "src/primitives/crp.py: gibbs_logps, gibbs_tables", "src/utils/general.py: log_pflip"]}
{"id": "C59", "title": "Repeated inference over rows converges to the posterior", "statement": "From every view of a model, after n passes of transition_rows over all rows, each in an order of its own, the expected value of any function of the partition of the rows differs from its posterior expectation by at most (1-e)^n times its range, with e > 0 the same for all starts, orders and functions; hence it converges to the posterior expectation.", "quantifier": "every catalogue of collapsed types, data set, reachable view, sequence of passes and function of the partition", "why_tests_cant": "A limit over unboundedly many random steps, from every start.", "anchors": ["src/mixtures/view.py: transition_rows, _gibbs_transition_row, logpdf_score"]}
{"id": "C60", "title": "Inference over columns leaves the CrossCat posterior invariant", "statement": "The posterior weight of a State (prior of its concentrations, times probability of its column partition, its row partitions and the data; zero if columns declared independent share a view) depends on the latent structure only, not on labels of views or clusters. A column transition, and a pass over any columns in any order, does not raise; it keeps data, types, hyperparameters and constraints, leaves the State consistent, moves no column it was not asked to move and puts no column beside one declared independent of it. With auxiliary views drawn as new views are, the posterior over latent structures is invariant under a column transition and under a pass.", "quantifier": "every catalogue of collapsed types, data set, reachable State with sorted views and no dependence constraints, order of columns, positive number of auxiliary views, random draw and function of the latent structure", "why_tests_cant": "A distributional statement over all data sets; a wrong weight, a missing correction for auxiliary views or a column that forgets its own view still yields valid-looking samples.", "anchors": ["src/crosscat/state.py: transition_dims, _gibbs_transition_dim, _migrate_dim, _dim_get_data_logp", "src/mixtures/view.py: __init__, incorporate_dim", "src/primitives/crp.py: simulate, gibbs_logps, gibbs_tables, construct_hyper_grids"]}
{"id": "C61", "title": "State inference leaves the CrossCat posterior invariant, whatever the schedule", "statement": "transition with any non-empty list of kernels (alpha, view_alphas, column_params, rows, columns), any columns and rows named, stopped after any number of kernel calls, does not raise and leaves a consistent State with the same data, types, hyperparameters and constraints. If the latent structure is drawn from the posterior, so it is afterwards. It changes only what it is asked to: the concentration of the column partition, the concentrations of views, the rows and the columns change only by the kernels for them, only the columns named move, and without the kernel for columns only views of the columns named and rows named change. A column that does not exist, or an empty list of kernels, is refused and nothing changes.", "quantifier": "every catalogue of collapsed types, data set, reachable State with sorted views, list of kernels, columns, rows, number of kernel calls, order and random draw", "why_tests_cant": "A distributional statement over all data, schedules and interruption points; a wrong conditional in one kernel biases all results but each sample looks valid.", "anchors": ["src/crosscat/state.py: transition, _transition_generic, transition_crp_alpha, transition_view_alphas, transition_dim_params, transition_view_rows, transition_dims", "src/mixtures/view.py: transition_crp_alpha, transition_rows", "src/mixtures/dim.py: transition_hypers"]}
{"id": "C62", "title": "State inference converges to the CrossCat posterior", "statement": "Let transition be called with a list of kernels that holds alpha, view_alphas, rows and columns, in any order and with any others. From every State of a model, after n kernel calls, whatever the orders, the expected value of any function of the latent structure differs from its posterior expectation by at most (1-e)^(n / twice the length of the list) times its largest deviation, with e > 0 the same for all starts, orders and functions. Hence the probability of ending in a given latent structure tends to its share of the posterior weight, which is positive just if no columns declared independent share a view.", "quantifier": "every catalogue of collapsed types, data set, reachable State with sorted views and no dependence constraints, list of kernels, sequence of orders, function of the latent structure and number of kernel calls", "why_tests_cant": "A limit over unboundedly many random steps, from every start; a kernel that leaves some structure out of reach passes every check of invariance.", "anchors": ["src/crosscat/state.py: transition, _transition_generic, transition_crp_alpha, transition_view_alphas, transition_view_rows, transition_dims", "src/mixtures/view.py: transition_crp_alpha, transition_rows"]}
{"id": "C63", "title": "State inference with hyperparameters leaves the full posterior invariant, whatever the schedule", "statement": "transition with any non-empty list of all the kernels, also column_hypers, any columns and rows named, stopped after any number of kernel calls, does not raise and leaves a consistent State with the same data, types and constraints, all hyperparameters and concentrations entries of their grids. If hyperparameters and latent structure are drawn from the posterior (uniform prior on the grids), so they are afterwards. Hyperparameters change only in the columns named and only by the kernel for them, which changes nothing else. A column that does not exist, or an empty list of kernels, is refused and nothing changes.", "quantifier": "every primitive collapsed type, data set, reachable State with sorted views, grids the library builds, list of kernels, columns, rows, number of kernel calls, order and random draw", "why_tests_cant": "A distributional statement over all data, schedules and interruption points; hyperparameters that lag behind in a cluster or in the template of new clusters bias the other kernels without any visible error.", "anchors": ["src/crosscat/state.py: transition, _transition_generic, transition_dim_hypers", "src/mixtures/dim.py: transition_hypers", "src/primitives/*.py: set_hypers, get_hypers, construct_hyper_grids"]}
{"id": "C64", "title": "State inference with hyperparameters converges to the full posterior", "statement": "Let transition be called with a list of kernels that holds alpha, view_alphas, column_hypers, rows and columns, in any order and with any others. From every State of a model, after n kernel calls, whatever the orders, the expected value of any function of hyperparameters and latent structure differs from its posterior expectation by at most (1-e)^(n / twice the length of the list) times its largest deviation, with e > 0 the same for all starts, orders and functions. Hence the probability of ending in given hyperparameters and a given latent structure tends to their share of the posterior weight, which is positive just if no columns declared independent share a view.", "quantifier": "every primitive collapsed type, data set, reachable State with sorted views and no dependence constraints, grids the library builds, list of kernels, sequence of orders, function of hyperparameters and latent structure, and number of kernel calls", "why_tests_cant": "A limit over unboundedly many random steps, from every start; a kernel that leaves some values out of reach passes every check of invariance.", "anchors": ["src/crosscat/state.py: transition, _transition_generic, transition_dim_hypers, transition_crp_alpha, transition_view_alphas, transition_view_rows, transition_dims", "src/mixtures/dim.py: transition_hypers"]}
{"id": "C65", "title": "A kernel density estimate answers queries about one distribution", "statement": "For a MultivariateKde, logpdf of any targets given any constraints (and the observed cells of the row it is asked about) is the log of the conditional density of the product-kernel mixture over the rows that hold all the variables of the query. The densities add up to one over the values of the targets and obey the chain rule. simulate draws from just that distribution, N samples are independent, logpdf_score is the sum over rows of the log density of their observed cells. Answers depend on the rows only, not on the history that led to them; malformed queries raise ValueError.", "quantifier": "every schema of numerical and nominal outputs, history of observations, removals and learnt bandwidths, set of targets, constraints, row, values, and measurable sets of values", "why_tests_cant": "Densities and sampling laws over continuous values; a kernel that spreads its mass over the wrong categories, or weights that ignore the evidence, still return plausible numbers.", "anchors": ["src/kde/mvkde.py: __init__, incorporate, unincorporate, logpdf, simulate, _simulate_member, _simulate_gaussian_kernel, _simulate_aitchison_aitken_kernel, logpdf_score, transition, _dataset, populate_constraints", "src/utils/general.py: pflip"]}
{"id": "C66", "title": "A nearest neighbour model answers queries about the localities of the nearest rows", "statement": "For a MultivariateKnn, logpdf of any targets given any evidence (constraints and the observed cells of the row it is asked about) is the log of the average of the densities of K local models, one per row of the K nearest to the evidence, each learnt from the M rows nearest to that row; the densities add up to one over the values of the targets, and simulate draws from just that distribution, N samples independently. Without evidence simulate draws a row first and then a sample given its other cells (or given its first target). Malformed queries raise ValueError. The answers do not depend on how ties between rows are broken, on the history that led to the rows, or on the labels of categories.", "quantifier": "every schema of numerical and nominal outputs, K, M, history of observations and removals, set of targets, constraints, row, values, measurable sets of values, and every nearest neighbour search that meets its contract", "why_tests_cant": "Laws of a randomized program over continuous values, and searches that differ only in the order of equidistant rows; a test on one data set sees one order and one seed.", "anchors": ["src/knn/mvknn.py: __init__, incorporate, unincorporate, logpdf, simulate, _simulate_fallback, _find_neighborhoods, _create_local_model_joint, _create_local_model_numerical, _create_local_model_categorical, _dummy_code, _dataset, populate_constraints", "src/utils/data.py: dummy_code"]}
{"id": "C67", "title": "A random forest answers queries about a mixture of its predictions and the uniform law", "statement": "For a RandomForest, logpdf of a category given the inputs is the log of alpha times one over the number of categories plus one minus alpha times the probability that the fitted forest gives the category (zero for one it has not seen); before any fit it is uniform; any other value has density zero. The densities of the categories add up to one; simulate draws from just that law, N samples independently, and returns the category of an observed row. logpdf_score is the log probability of all rows. transition draws alpha from its grid with the probability that the likelihood of the rows gives it and then fits the forest to exactly the rows of the history. Exactly the malformed queries are refused.", "quantifier": "every schema, history of observations, removals and transitions, classifier that meets its contract, inputs, category, number of samples", "why_tests_cant": "A law of a randomized program for all inputs and every forest; a category the forest has not seen, or a grid weighted by the wrong likelihood, shows only in frequencies.", "anchors": ["src/regressions/forest.py: __init__, incorporate, unincorporate, logpdf, simulate, logpdf_score, transition, transition_params, preprocess, calc_log_likelihood, calc_predictive_logp", "src/utils/general.py: log_pflip, simulate_many"]}
{"id": "C68", "title": "A least squares regression answers queries about a normal law around its predictions", "statement": "For an OrdinaryLeastSquares, logpdf of a value given the inputs is the log density of the normal law around the prediction with the noise as its standard deviation, which integrates to one, and simulate draws from just that law, N samples; at an observed row it returns its value. transition sets prediction and noise to those of maximum likelihood, over all affine functions of the coded inputs and all standard deviations, given exactly the rows of the history. Exactly the malformed queries are refused, among them those that name other variables.", "quantifier": "every schema of numerical and nominal inputs, history of observations, removals and transitions, least squares solver, inputs, value, number of samples", "why_tests_cant": "Optimality against all affine functions and the law of samples over all inputs; a test sees one fit and some samples, and a sampler without noise returns plausible numbers.", "anchors": ["src/regressions/ols.py: __init__, incorporate, unincorporate, logpdf, simulate, transition, preprocess", "src/utils/data.py: dummy_code"]}
{"id": "C69", "title": "Components simulate from the predictive density they report", "statement": "For every component of a primitive type and after every history of observations, removals and hyperparameter changes: the value that simulate returns for a row that is not observed has exactly the law whose density logpdf reports for that row, which has total mass one; for an observed row it is the value held. N samples are independent draws of that law. The truncated normal gives up with RuntimeError after 1000 rejected draws, with just the probability of 1000 rejections, and otherwise follows its density. The CRP returns a table with the probability logpdf reports. Exactly queries with evidence, with inputs or about anything but the one output are refused.", "quantifier": "every primitive type, valid hyperparameters, history of calls, row, measurable set of values, number of samples", "why_tests_cant": "Equality of two laws on the real line, one given by a chain of draws and the other by a closed formula; a wrong scale or a precision taken for a variance shows only in frequencies.", "anchors": ["src/primitives/*.py: simulate, posterior_hypers, calc_predictive_logp", "src/primitives/normal.py: sample_parameters", "src/primitives/distribution.py: simulate", "src/utils/general.py: pflip, log_pflip, simulate_many"]}
{"id": "C70", "title": "A simulated row has jointly the density that logpdf reports", "statement": "For every State: the row that simulate returns for a new row, given any possible values of other columns, has exactly the joint law whose density logpdf reports for the target columns given these values; the answer comes with probability one, and has exactly the target columns, each with a value. The joint density integrates to one over all values of the targets, and integrating it over some of the targets gives the density that logpdf reports for the others. For a row of the State the same holds with logpdf asked about that row. If a given value is outside the support of its column, in a view with targets, there is never an answer.", "quantifier": "every reachable State over the primitive types, row identifier, set of targets, given values, measurable function of the row", "why_tests_cant": "Equality of two laws on a space of any dimension, mixed from discrete and continuous columns; one from nested draws of clusters and values, the other from products of mixtures. Frequencies of samples show only gross errors, and never dependence between many columns.", "anchors": ["src/crosscat/state.py: simulate, logpdf", "src/crosscat/sampling.py: state_simulate, view_simulate, _simulate_row, _simulate_hypothetical, state_logpdf, view_logpdf", "src/mixtures/dim.py: simulate, logpdf", "src/primitives/*.py: simulate, logpdf"]}
{"id": "C71", "title": "Weighted samples of a network are properly weighted, and queries without evidence are exact", "statement": "For every network of components that report the density they simulate from: the expected value of any function of a weighted sample times its weight is the integral of the function times the joint density (the product of the densities of the components) over all variables that are not constrained. So the expected weight is the density of the evidence. Without evidence simulate draws the targets exactly from their joint density, and the expected value of the density that logpdf reports is their density, at every accuracy. If the evidence has positive density whatever the other values, there is an answer with probability one. The primitive components are of this kind in every state.", "quantifier": "every well-formed network, choice of evaluation and set order, query, values of evidence and inputs, accuracy, measurable function", "why_tests_cant": "An identity between integrals over all networks and queries; importance weights are a product over components in topological order and errors in which component contributes, or with which inputs, show only as bias of an average.", "anchors": ["src/network/importance.py: simulate, logpdf, weighted_sample, invoke_cgpm", "src/primitives/*.py: simulate, logpdf"]}
{"id": "C72", "title": "Network queries given evidence approach the conditional law as the accuracy grows", "statement": "For every network of components that report the density they simulate from, and evidence of positive density whatever the other values: the probability of any event under simulate with accuracy n differs from its conditional probability given the evidence by at most 2 sqrt(M/n)/Z, with Z the density of the evidence and M the second moment of the weights; so it tends to it uniformly over events. The density that logpdf reports deviates from the conditional density by eps or more with probability at most a constant over n. If the components that hold the evidence have no random inputs, both answers are exact at every accuracy. Otherwise, with accuracy 1, the default, the evidence enters only through the inputs of the components below it: the law of simulate is the joint density divided by the weight, which can be far from the conditional law.", "quantifier": "every well-formed network, choice of evaluation and set order, query, values of evidence and inputs with finite second moment of the weights, accuracy, event, deviation", "why_tests_cant": "A rate of convergence over all networks and events; a weight that is dropped or counted twice gives answers that converge to something else, which no run of fixed accuracy tells from sampling error.", "anchors": ["src/network/importance.py: simulate, logpdf, weighted_sample", "src/utils/general.py: log_pflip, logmeanexp"]}
{"id": "C73", "title": "Queries of a State with composed models follow the joint law of its views and the models", "statement": "A new row of a State with composed models has a joint density: for every view the prior probability of a cluster times the densities of the values in that cluster, times the densities of the models given their inputs. Every view, exposing its cluster variable, is a component of the kind of C71: logpdf reports the density of any of its variables and simulate draws any of them given any others. simulate of the State draws the targets from their conditional density given the evidence, and logpdf reports that density without error, at every accuracy, if the components that hold the evidence have no random inputs; with other evidence they approach it as the accuracy grows. Composing models does not change the answers for the State's own columns: simulate has the same joint law, and logpdf the same value, as without the models.", "quantifier": "every reachable State over the primitive types, composed models that keep the contract of a component, order of evaluation, new row, query, evidence, accuracy, measurable function of the row", "why_tests_cant": "Equality of laws over all States and networks on top of them; the composite State goes through another code path than the plain one (a network of networks, with sampled clusters and importance weights), so agreement cannot be sampled for every State and query.", "anchors": ["src/crosscat/state.py: simulate, logpdf, compose_cgpm, build_network, build_cgpms", "src/mixtures/view.py: simulate, logpdf, build_network", "src/network/importance.py: simulate, logpdf, weighted_sample", "src/primitives/crp.py: simulate, logpdf"]}
{"id": "C74", "title": "Linear regressions, factor analyses and random forests can be composed with a State, and queries follow the joint law", "statement": "A Bayesian linear regression with numerical inputs, a factor analysis and a random forest simulate from the density that logpdf reports: for a row they have not observed, the output of a regression given its inputs is drawn from the ratio of the marginal densities with and without the row (a posterior draw of noise and coefficients, then a normal draw), any variables of a factor analysis given any others are drawn from the conditional normal density, and the category of a forest from the mixture of the uniform law and the fitted forest. Each has total mass one. So a State composed with any number of them, also on top of each other, answers as its joint law says: exactly if the evidence is about its own columns, and in the limit of growing accuracy whatever the evidence; the weights then always have a finite second moment, since the densities of models with inputs are bounded.", "quantifier": "every history of the models, reachable State over the primitive types, well-formed composition, new row, query, evidence of positive density, accuracy, measurable function of the row", "why_tests_cant": "Equality of laws between a generator (gamma noise, coefficients from a multivariate normal, a normal draw) and a closed formula, for every history and inside every network; one wrong scale in a posterior draw gives plausible samples. That importance weights have a finite variance is a statement about integrals over all values.", "anchors": ["src/regressions/linreg.py: simulate, simulate_params, sample_parameters, logpdf", "src/factor/factor.py: simulate, logpdf", "src/regressions/forest.py: simulate, logpdf", "src/utils/mvnormal.py", "src/crosscat/state.py: compose_cgpm, simulate, logpdf", "src/network/importance.py: weighted_sample"]}
{"id": "C75", "title": "Inference over the parameters of beta and truncated normal components targets their posterior", "statement": "Every iteration of the parameter transitions of the components with explicit parameters (transition_params of Beta and NormalTrunc, through mh_sample) leaves the posterior density of the parameter given the data, that is the exponential of logpdf_score as a function of the parameter, invariant: if the parameter has that density before the iteration then also after it, at every jump size; and no density that is not a multiple of it. More generally an iteration of mh_sample on a support leaves the density it is given invariant, and so does a run that ends before the jump size is tuned. From parameters in range a whole transition ends, with probability one, with parameters in range, and the transition of a beta component raises nothing.", "quantifier": "every sufficient statistic, value of the other parameter, bounds of the truncated normal, jump size and state of the loop, measurable function of the next value; every measurable positive target density on the support", "why_tests_cant": "Stationarity is an identity between integrals over all starting points and all draws. A chain with a slightly asymmetric proposal or a missing normalising constant moves, mixes and stays in its domain; its samples look plausible, and no finite set of samples tells a biased stationary density from a slow chain.", "anchors": ["src/utils/sampling.py: mh_sample", "src/primitives/beta.py: transition_params, logpdf_score, calc_log_likelihood, calc_log_prior", "src/primitives/normal_trunc.py: transition_params, logpdf_score, calc_log_normalizer, calc_log_prior"]}
{"id": "C76", "title": "The example models draw from the densities that they report", "statement": "The hand written models of src/dummy and src/uncorrelated are consistent generators: what simulate draws has the density that logpdf reports. TrollNormal, UniformX, ParabolaY and SinY draw their output given their inputs from the density that they report, with total mass one, so they can be parts of any network; Parabola and Sin draw pairs from the product of those densities; TwoWay and FourWay draw each category with the probability they report; their retrieve_y_for_x gives inputs at which the category asked about is more probable than every other one, and refuses what is not a category; PieceWise draws the pair x, z, either of them alone, and one given the other, from one joint law and reports its densities; Linear, XCross and Dots draw pairs from the density they report, draw one variable given the other from the conditional density they report, and that density times the marginal one is the joint one; Ring and DiamondY draw points near the circle and the diamond that they stand for and do not fail.", "quantifier": "every noise level, flip probability and deviation in the domain, input, pair of values, query of one or two variables, measurable function of the answer", "why_tests_cant": "Equality between the law of a generator and a reported density for every input and value. A wrong index in logpdf, a table row that does not sum to one or constraints that are dropped still give numbers of a plausible size, and samples that look right.", "anchors": ["src/dummy/trollnormal.py: TrollNormal", "src/dummy/twoway.py: TwoWay", "src/dummy/fourway.py: FourWay", "src/dummy/piecewise.py: PieceWise", "src/uncorrelated/uniformx.py: UniformX", "src/uncorrelated/parabola.py: ParabolaY, Parabola", "src/uncorrelated/sin.py: SinY, Sin", "src/uncorrelated/diamond.py: DiamondY", "src/uncorrelated/directed.py: DirectedXyGpm", "src/uncorrelated/undirected.py: UnDirectedXyGpm", "src/uncorrelated/linear.py: Linear", "src/uncorrelated/xcross.py: XCross", "src/uncorrelated/dots.py: Dots", "src/uncorrelated/ring.py: Ring"]}
{"id": "C77", "title": "A batch of simulated rows is a batch of independent draws, per view and up to order", "statement": "simulate of a State with N samples of a new row: for each view the parts of the N rows in the columns of that view are, up to their order, N independent draws from the law that one simulation of those columns has given the same values, and the parts of different views are independent; so targets in one view give N independent copies of one simulated row, up to order. For a row of the State the N samples are exactly N independent copies, in their order, whatever the views. Whatever is drawn there are N rows with exactly the targets as columns, each with a value; values that are impossible in a view with targets raise ValueError.", "quantifier": "every reachable State over the primitive types, row, targets, given values of positive density, number of samples, order of sets, measurable function of the N rows (symmetric for a new row)", "why_tests_cant": "Joint law of all N rows: a batch that repeats a draw within a cluster, drops a cluster or miscounts one has rows that each look right. No finite set of batches settles a law.", "anchors": ["src/crosscat/state.py: simulate", "src/crosscat/sampling.py: state_simulate, view_simulate, _simulate_row", "src/utils/general.py: simulate_many, log_pflip"]}
{"id": "C78", "title": "Samples of an Engine, resampled by the likelihood of the evidence, are independent draws from the mixture of its states", "statement": "If every state of an Engine gives N samples that are, up to order, independent draws from its law, then the N samples that are chosen by likelihood weighting are, up to order, N independent draws from the mixture of the laws of the states, each state having the weight exp(w) over the sum of these; in particular no state is favoured by its position and no draw is used twice. For a new row and targets that are in one view of each state, the weight of a state is the density of the given values in that state over the sum of these densities (equal weights without given values); for a row of the states the targets may be in several views.", "quantifier": "every list of states, weights that are not NaN or infinite and not all zero, number of samples, measurable symmetric function of the samples; every list of reachable States over the primitive types, query and evidence", "why_tests_cant": "A resampling with replacement, or weights that are matched to the wrong states, gives samples that each look right; the law of the whole list, for every number of states and samples, cannot be sampled.", "anchors": ["src/crosscat/engine.py: simulate, _likelihood_weighted_resample", "src/utils/general.py: log_pflip", "src/crosscat/state.py: simulate, logpdf"]}
{"id": "C79", "title": "A Venture model holds exactly the rows that were incorporated into it", "statement": "Whatever is called on a VsCGpm (incorporate, unincorporate, simulate with or without constraints, saving and loading), and whether the calls return or raise, its interpreter holds exactly the cells that were incorporated and not unincorporated: the value of each, for the inputs of its row, under one label, and nothing else; in particular a simulation leaves no trace, and a row that is incorporated and unincorporated leaves none. incorporate returns exactly for outputs of the model, values that are not nan, cells that are not held, and inputs that are complete for a new row and omitted or repeated for a known one; simulate likewise; unincorporate returns exactly for rows with cells; otherwise they raise ValueError and change nothing.", "quantifier": "every list of calls with any arguments, from a new model with any outputs and inputs; labels that do not repeat", "why_tests_cant": "Holds over all histories of calls, including the ones that raise; labels link three records (rows, labels, directives of the interpreter), and a record that is left behind shows only in later calls on the same row.", "anchors": ["src/venturescript/vscgpm.py: VsCGpm.incorporate, unincorporate, simulate, _observe_cell, _forget_cell, _predict_cell, _validate_incorporate, _validate_simulate, _check_matched_inputs, to_metadata, from_metadata"]}
{"id": "C80", "title": "Estimates of mutual information and entropy converge to the quantities that they stand for", "statement": "The estimate of the mutual information of two disjoint sets of columns of one view, given any possible values of others, from N samples (state.py: _compute_mi) is distributed as the mean of N independent copies of the logarithm of the ratio of the joint density to the product of the densities, as logpdf reports them, at a simulated row. The mean of this logarithm, the mutual information, is finite and not negative, and there is a constant B such that for every N and every e > 0 the estimate is off by e or more with probability at most B / (N e^2); it is a finite number with probability one. Likewise the estimate of the entropy of a set of columns, if the logarithm of their density has a second moment, in particular if they have finitely many possible values. For a query over several views the estimates of the views add up: mutual_information is off by e or more from the sum of the mutual informations in the views with probability at most B / (N e^2).", "quantifier": "every reachable State over the primitive types with proper hyperparameters, sets of columns, given values of positive density, number of samples, tolerance, order of sets", "why_tests_cant": "A bound on a probability for every number of samples. A bias of an estimator, a marginal density computed from the wrong columns, or a heavy tail that makes the mean infinite shows in no finite set of estimates, each of which is a random number.", "anchors": ["src/crosscat/state.py: mutual_information, _compute_mutual_information, _compute_mi, _compute_entropy, simulate, logpdf, logpdf_bulk"]}
{"id": "C81", "title": "The slice sampler leaves the density that it is given invariant", "statement": "One iteration of slice_sample is reversible with respect to the density whose logarithm it is given: among points drawn from that density, moves from one set of points to another are as likely as moves back. This holds for every density, domain and width w, wherever the log density raises or is -inf, and whether or not the moves end. If the log density returns at every point inside the domain and the density has finite mass, then from almost every point an iteration ends, without an error, with probability one; then an iteration leaves the density invariant, and so does a whole run, whatever its number of samples, burn and lag: if the initial point has the density, so has each sample, and the samples are jointly distributed as a point with the density and the points to which lag, twice lag, ... iterations take it.", "quantifier": "every measurable log density that is not +inf inside the domain, interval (bounded or not), w > 0, number of samples, burn, lag > 0, pair of measurable sets of points, measurable functions of the samples", "why_tests_cant": "Reversibility is an identity between integrals over all starting points and all draws of nested loops without a bound on their number. An interval that is extended from the wrong end, or shrunk past the current point, gives samples in the domain that look plausible; no finite set of samples tells a biased density from a slow chain.", "anchors": ["src/utils/sampling.py: slice_sample, _find_slice_interval"]}
{"id": "C82", "title": "The rejection sampler returns independent draws from its target", "statement": "If the proposals of rejection_sample are drawn from a density, known up to a constant and with respect to any measure, that is nowhere below the target density, then the N samples are independent draws from the target density, normalised, and the sampler returns them with probability one. (It has to be given densities: its documentation asks for log densities, and given those it returns nothing if they are negative.)", "quantifier": "every measurable target and proposal, base measure, program that draws proposals with that law, number of samples, measurable function of the list of samples", "why_tests_cant": "Joint law of all samples over an unbounded number of trials; a wrong comparison or a reused uniform number gives samples from a density that looks similar.", "anchors": ["src/utils/sampling.py: rejection_sample"]}
{"id": "C83", "title": "The multivariate normal log density and its gradient are right", "statement": "For every positive definite covariance, mvnormal.logpdf is the logarithm of the multivariate normal density. If the point is a differentiable function of parameters t, the mean of parameters p and the covariance of parameters q, and the arrays of their partial derivatives are passed to mvnormal.dlogpdf, the three lists it returns are the partial derivatives of logpdf in all the coordinates of t, p and q, and logpdf is differentiable as a function of all of them together.", "quantifier": "every dimension, numbers of parameters, differentiable parameterisations, parameters at and near which the covariance is positive definite; every Cholesky factorisation", "why_tests_cant": "A statement about a limit at every point of a continuum, in every dimension. Finite differences settle a few points within a tolerance; a transposed factor or a missing half shows only for covariances that are not diagonal or in some dimensions.", "anchors": ["src/utils/mvnormal.py: logpdf, dlogpdf, _covariance_factor, Covariance_Cholesky"]}
{"id": "C84", "title": "Reading a data set by a schema keeps the values, and the codes of nominal values are a bijection", "statement": "When parse_schema returns, the matrix and the lists of names, types, indices and distargs describe the columns of the schema that are not ignored, in the order of the schema. Entries of numerical columns are the values of the data frame; 'NA' and NaN are missing. Entries of bernoulli and categorical columns are codes: the mapping returned for the column gives each value that occurs its own code, uses exactly the codes 0, ..., k-1, missing values stay missing, k is 2 for a bernoulli column and is the number returned for a categorical column. Without missing values the codes are in the order of the values. The call succeeds when some column is not ignored, all of them exist, and each bernoulli column has exactly two values. A type written as categorical(k=7) is accepted, as documented. parse_distargs returns the name of a type and the values of its arguments.", "quantifier": "every data frame, schema, set of values, sorting routine; every text of a type with arguments", "why_tests_cant": "Data frames, schemas and names are unbounded; a mapping that merges two values, or a code off by one, shows only for some columns, and an odd name or a column of one value only for some frames.", "anchors": ["src/utils/data.py: parse_schema, build_valmap", "src/utils/config.py: parse_distargs, cctype_class"]}
{"id": "C85", "title": "An inline Venture model answers from its expression alone", "statement": "An InlineVsCGpm can be made from an expression of the form (x, y, ...) ~> body exactly when it has one output that is not an input, distinct inputs, as many inputs as the expression has arguments, and Venture executes the expression. Whatever has been called before, for every row, logpdf is the log density that Venture reports for the expression applied to the inputs in their declared order, and simulate returns N samples of the expression applied to them, whatever the order of the dictionary of inputs; no call leaves a trace, also when Venture raises; queries with missing or further inputs, with constraints or for other targets are refused. The object restored from its metadata is the same.", "quantifier": "every expression, interpreter, history of calls with any arguments (also refused ones), order of inputs, number of samples", "why_tests_cant": "Histories and expressions are unbounded. A label that is not forgotten shows only after particular sequences of calls, and arguments in dictionary order only for some inputs.", "anchors": ["src/venturescript/vsinline.py: InlineVsCGpm", "src/utils/general.py: simulate_many"]}
{"id": "C86", "title": "A stand-alone model that is saved and loaded is the same model", "statement": "After any history of calls, from_metadata accepts the metadata that to_metadata returns, directly or after it was written as JSON and read again. Kernel density estimates, nearest neighbour models and factor analyses come back as the same object. A linear regression, a least squares regression and a random forest come back with the same schema, hyperparameters, trained regressor and class counts, and with the same rows, perhaps in another order; whatever is incorporated or unincorporated on both afterwards, the same calls are refused, and logpdf, simulate and the score of both agree. (Retraining a least squares regression gives the same if training does not depend on the order of the rows. The prior mean and scale of a linear regression are not saved and come back as the defaults.)", "quantifier": "every schema, history of calls before saving and after loading with any arguments (also refused ones), order in which the dictionaries are read, query", "why_tests_cant": "Histories are unbounded. A field that is not saved, or a pairing of values and covariates that depends on the order of a dictionary, shows only after loading, for some rows and some later calls.", "anchors": ["src/regressions/linreg.py: LinearRegression.to_metadata, from_metadata", "src/regressions/ols.py: OrdinaryLeastSquares.to_metadata, from_metadata", "src/regressions/forest.py: RandomForest.to_metadata, from_metadata", "src/factor/factor.py: FactorAnalysis.to_metadata, from_metadata", "src/kde/mvkde.py: MultivariateKde.to_metadata, from_metadata", "src/knn/mvknn.py: MultivariateKnn.to_metadata, from_metadata"]}
{"id": "C87", "title": "A Lovecat transition hands over the State's data and installs Lovecat's answer", "statement": "transition_lovecat calls Lovecat once, with a table that has one row for each row of the State and one entry for each column in the order of the outputs: a numerical column as it is, a categorical column in codes 0..K-1, one for each value that occurs, different values getting different codes, missing values staying missing, and with a dictionary that leads back from the codes to the values; with the hyperparameters of each column, the partition of the State (C40), the number of steps, time limit, kernels, rows, and columns (by position) that were asked for. If Lovecat answers with a partition of these columns and rows, the State afterwards has that partition and those concentrations, is consistent, and has its data, columns, types, hyperparameters and constraints as before; if Lovecat raises, the State is as before. Columns of other types, conditional columns and unknown columns are refused with ValueError before anything happens. (With neither a number of steps nor a time, and for a categorical column with no observed value, the code fails with AssertionError.)", "quantifier": "every reachable State of numerical and categorical columns with any missing values, every order in which values with missing ones among them are sorted, every answer of Lovecat, all arguments", "why_tests_cant": "The table depends on which categories occur and which values are missing; a code that is off by one, or a column read in another order, gives a plausible but wrong inference. Lovecat's answers are random.", "anchors": ["src/crosscat/state.py: State.transition_lovecat", "src/crosscat/lovecat.py: transition, _crosscat_M_c, _crosscat_T, _crosscat_X_D, _crosscat_X_L, _update_state"]}
{"id": "C88", "title": "Nearest-neighbour estimates are what they say", "statement": "For every sample and every noise that is added, entropy, mi, cmi and kldiv are the estimates of Kozachenko-Leonenko, Kraskov et al. and their variants: computed from the distance (maximum norm) of each point to its k-th nearest other point, and from the numbers of points that are closer than that in the marginal samples; micd is the entropy of the points less the frequency-weighted entropies given each label. The entropy does not depend on the order of the points or on their origin, and grows by d log|c| when they are multiplied by c; the mutual information does not depend on the order of the pairs or on the origin of either sample, and is symmetric, also conditionally. Too few points, and samples of different lengths or dimensions, are refused with AssertionError; coinciding points give ValueError, never a wrong number. (kldiv with one neighbour always fails with IndexError.)", "quantifier": "every sample of any size and dimension, noise, number of neighbours k, base, permutation, translation and scale", "why_tests_cant": "The estimates are sums over all points of order statistics of all distances; an off-by-one in the neighbour (which is counted with the point itself) or a boundary that is included changes every value a little and no test value is known in closed form.", "anchors": ["src/utils/entropy_estimators.py: entropy, mi, cmi, kldiv, micd, avgdigamma, zip2"]}
{"id": "C89", "title": "A transition by Loom works on the data of the State", "statement": "A transition of a State by Loom writes the State's table and types to a project (one column per variable, named after it, with every cell and a type of Loom that can hold all values of the variable's model), or uses the project written before; it asks Loom for the given seed and number of passes (0 and 1 by default), and installs exactly the sample Loom answers with: rows, data, types, hyperparameters and constraints stay, and the State is consistent. Projects of other States are untouched. The States of an Engine share one project, and the State i gets the sample of the chain i; when Loom raises, all States stay as they were. Seconds, kernels, progress and checkpoints are refused with ValueError, as are columns without a type of Loom, and nothing changes. (Violated: the project is not written again when the data changes, and two projects created within a second are one.)", "quantifier": "every reachable State or Engine, every behaviour of Loom, store of projects, time, seed and number of passes", "why_tests_cant": "Which data Loom sees depends on the history of the State and of all other States that use the store; Loom accepts stale files without complaint, so no single run shows the difference.", "anchors": ["src/crosscat/loomcat.py: initialize, transition, transition_engine, _validate_transition, _write_dataset, _write_schema, _generate_project_paths", "src/utils/config.py: loom_stattype, timestamp", "src/crosscat/state.py: State.transition_loom"]}
{"id": "C90", "title": "Seat probabilities are those of the process", "statement": "For every seating plan and positive concentration, logp_crp_fresh gives each table the probability of the Chinese restaurant process and divides the probability of a new table evenly between m auxiliary tables, and the probabilities add up to one; logp_crp of a seating plan grows by exactly the log probability of the seat when a customer sits down at a table or opens one, starting from 0; logp_crp_gibbs gives a seated customer, up to a common factor, the probabilities given all others, where the customer's own table, if they sit alone, counts as one of the m new ones, and these add up to one; logp_crp_unorm differs from logp_crp by a term free of the concentration; log_nCk is the logarithm of the binomial coefficient for k <= n and ValueError for k > n > 0. (Violated: a concentration that is an integer divides as an integer, and log_nCk(0, k) is 0.)", "quantifier": "every list of table sizes and of assignments, customer, positive concentration, number of auxiliary tables, and every n and k", "why_tests_cant": "The identities range over all partitions; a table too many or too few for a customer who sits alone is a bias that a test of a few plans does not show.", "anchors": ["src/utils/general.py: logp_crp, logp_crp_unorm, logp_crp_gibbs, logp_crp_fresh, log_nCk"]}
{"id": "C91", "title": "Bulk calls are the single calls, in order", "statement": "incorporate_bulk with the next row numbers in order and rows whose values fit takes in all rows: the table grows by just these rows, each in the clusters it names or that were sampled for it, old rows keep their clusters and the State is one that single calls reach. force_cell_bulk fills in missing cells that are each named once and changes no other cell, whatever their order. A row or cell that is refused ends the call with the exception of the single call, and exactly the rows or cells before it have taken effect. Lists of different lengths are refused. simulate_bulk and logpdf_bulk return one answer per query, in order, each that of the single query, with no constraints, no inputs and one sample where these are left out; the first query that raises ends the call with its exception, and lists of different lengths raise AssertionError.", "quantifier": "every catalogue of types, reachable State, list of rows, cells or queries, position of a refused entry, and every outcome of the random draws", "why_tests_cant": "Lists of every length, with a failure at every position; a surplus entry that is dropped leaves no trace.", "anchors": ["src/crosscat/state.py: State.incorporate_bulk, State.force_cell_bulk, State.simulate_bulk, State.logpdf_bulk"]}
{"id": "C92", "title": "Synthetic tables have the structure and the supports that were asked for", "statement": "gen_partition(N, weights) with positive weights that add up to one, not more than N of them, returns N labels that use every label below the number of weights and no other; a zero weight, weights that do not add up to one, or more weights than N are refused with AssertionError. gen_data_table with such weights for the views and for the clusters of every view (or a given partition of the columns with labels counted from zero), and separations in (0, 1], returns a column for each type with a value for each row, partitions with exactly the parts asked for and none of them empty, the given partition of the columns if there is one, and only values in the support of the type of their column, so that a State with these types takes the whole table. The value of a cell is drawn with the parameters of the cluster of its row in the view of its column. The only failure is ValueError from a truncated normal column.", "quantifier": "all numbers of rows, weights, column types, separations, given partitions, and all outcomes of the draws and shuffles", "why_tests_cant": "a test draws a handful of tables from fixed seeds; an empty part, a label out of range or a value outside the support may need a rare draw", "anchors": ["src/utils/test.py:gen_data_table", "src/utils/test.py:gen_partition", "src/utils/test.py:_gen_beta_data", "src/utils/test.py:_gen_normal_trunc_data", "src/utils/test.py:_gen_vonmises_data", "src/utils/test.py:_gen_bernoulli_data", "src/utils/test.py:_gen_categorical_data"]}
