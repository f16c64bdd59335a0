{"id": "C01", "title": "Balanced panel IDs", "statement": "build_id_data(T, J, F) returns T*J rows; rows are T consecutive blocks of J rows with market id equal to the block number; within a market, firm ids are nondecreasing, cover exactly 0..F-1, and each firm has floor(J/F) or ceil(J/F) products. Any non-positive T or F, or J < F, raises ValueError.", "quantifier": "all integers T, J, F", "why_tests_cant": "an arithmetic fact about floor(j*F/J) for every pair (J, F); tests only try a few sizes", "anchors": ["pyblp/construction.py:build_id_data"]}
{"id": "C02", "title": "Ownership matrices entry by entry", "statement": "In build_ownership's output, the entry at a product's row i and column k is kappa(firm of i, firm of the k-th product of i's market) when k is smaller than the number of products of that market and NaN otherwise, for the default, 'monopoly', 'single' and callable kappa, whatever order the rows of different markets come in.", "quantifier": "all product tables, all kappa functions, all rows and columns", "why_tests_cant": "depends on every interleaving of market rows and every kappa", "anchors": ["pyblp/construction.py:build_ownership", "pyblp/utilities/basics.py:get_indices"]}
{"id": "C03", "title": "Sums-of-characteristics instruments", "statement": "build_blp_instruments returns, for each product and characteristic, first the sum over other products of the same firm in the same market and then the sum over all products of rival firms in the same market.", "quantifier": "all product tables and characteristic matrices", "why_tests_cant": "must hold for every grouping of rows", "anchors": ["pyblp/construction.py:build_blp_instruments", "pyblp/utilities/basics.py:Groups"]}
{"id": "C04", "title": "Differentiation instruments", "statement": "build_differentiation_instruments returns, for own and rival products, the documented sums of products of characteristic differences (quadratic) or of indicators that differences are below one standard deviation (local), and with interact the documented interactions.", "quantifier": "all product tables, characteristic matrices, versions, interact flags", "why_tests_cant": "a sum over all pairs of products in arbitrary tables; sign and diagonal conventions only show on asymmetric data", "anchors": ["pyblp/construction.py:build_differentiation_instruments"]}
{"id": "C05", "title": "data_to_dict loses nothing", "statement": "data_to_dict either raises KeyError or returns a mapping from which every column of every multi-column field can be recovered: distinct (field, column) pairs get distinct keys, and no key of the output is overwritten by another field.", "quantifier": "all field name sets and column counts", "why_tests_cant": "collisions depend on adversarial field names such as 'x1' with 'x' of 12 columns", "anchors": ["pyblp/construction.py:data_to_dict"]}
{"id": "C06", "title": "Group reductions", "statement": "Grouping by IDs: sum and mean return for each distinct ID (in sorted order) exactly the sum/mean over the rows with that ID, expand copies each group's statistic to exactly the rows of that group, and none of it depends on how ties are sorted.", "quantifier": "all ID columns and matrices", "why_tests_cant": "quantifies over all row orders and group structures", "anchors": ["pyblp/utilities/basics.py:Groups"]}
{"id": "C07", "title": "Market index partition", "statement": "The market-to-row index is a partition: every row appears in exactly one market's index list, in increasing order, and that market is the row's own market ID.", "quantifier": "all ID columns", "why_tests_cant": "every ordering of rows of a table must be split correctly", "anchors": ["pyblp/utilities/basics.py:get_indices"]}
{"id": "C08", "title": "Result of parallel market-by-market work does not depend on the schedule", "statement": "When market-level results are assembled into a full array keyed by market, the assembled array is the same for every order in which worker processes finish, and equals the serial result.", "quantifier": "all market tables, all result functions, all completion orders", "why_tests_cant": "the completion order is chosen by the OS", "anchors": ["pyblp/utilities/basics.py:generate_items", "pyblp/economies/problem.py:ProblemEconomy._compute_progress", "pyblp/results/economy_results.py:EconomyResults._combine_arrays"]}
{"id": "C09", "title": "Post-estimation rows are aligned with product data", "statement": "For product-level outputs computed in all markets, row i of the returned array is the value for row i of product_data, with extra columns NaN in markets with fewer products.", "quantifier": "all product tables and all per-market outputs", "why_tests_cant": "alignment fails only for unusual shapes (as many markets as products) combined with unsorted data", "anchors": ["pyblp/results/economy_results.py:EconomyResults._combine_arrays"]}
{"id": "C10", "title": "Micro aggregation order", "statement": "Micro moment numerators, denominators and covariances are accumulated over markets in the fixed order of unique market IDs, so results are identical (not just up to rounding) for every worker completion order.", "quantifier": "all completion orders", "why_tests_cant": "non-associative floating-point addition makes order observable; no test controls the OS scheduler", "anchors": ["pyblp/economies/problem.py:ProblemEconomy._compute_progress"]}
{"id": "C11", "title": "Importance sampling is reproducible for a seed", "statement": "ProblemResults.importance_sampling with a fixed seed selects the same agents and weights whatever the number of processes or the order in which they finish.", "quantifier": "all completion orders, all random streams", "why_tests_cant": "depends on the scheduler", "anchors": ["pyblp/results/problem_results.py:ProblemResults._compute_importance_weights", "pyblp/utilities/basics.py:generate_items"]}
{"id": "C12", "title": "Importance sampling weights reproduce the inside share", "statement": "In every market, exactly draws agents are kept, they are accepted ones, their weights are positive, and the weighted sum of their inside-good probabilities equals the observed inside share.", "quantifier": "all probability vectors, cutoffs, random choices, draws", "why_tests_cant": "holds for every random outcome, not on average", "anchors": ["pyblp/results/problem_results.py:ProblemResults._compute_importance_weights"]}
{"id": "C13", "title": "The process pool is always released", "statement": "After leaving a parallel() context, by normal exit or by any exception, computation is serial again.", "quantifier": "all nestings of contexts and all exception points", "why_tests_cant": "exception points are not enumerable by tests", "anchors": ["pyblp/utilities/basics.py:parallel", "pyblp/utilities/basics.py:generate_items"]}
{"id": "C14", "title": "Simple iteration: convergence flag and budget", "statement": "Iteration('simple') never calls the contraction more than max_evaluations times (at least once); if it reports convergence then the returned value is the image of some point whose weighted distance to that image is below atol + rtol*norm; otherwise it returns the last finite iterate.", "quantifier": "all contractions, starting values, tolerances, budgets", "why_tests_cant": "arbitrary black-box contractions including ones that produce NaN", "anchors": ["pyblp/configurations/iteration.py:simple_iterator", "pyblp/configurations/iteration.py:termination_check"]}
{"id": "C15", "title": "SQUAREM: convergence flag and budget", "statement": "Iteration('squarem') calls the contraction at most max_evaluations times beyond the current cycle, every reported convergence satisfies the tolerance test on the last evaluated step, and non-finite intermediate values never become the returned value.", "quantifier": "all contractions, schemes, step bounds, budgets", "why_tests_cant": "step lengths depend on the whole history of iterates", "anchors": ["pyblp/configurations/iteration.py:squarem_iterator"]}
{"id": "C16", "title": "Iteration result is finite", "statement": "Whatever the contraction returns, the vector returned by the simple and SQUAREM routines is finite whenever the starting values are finite.", "quantifier": "all contractions and finite starting values", "why_tests_cant": "adversarial contractions returning NaN at any call", "anchors": ["pyblp/configurations/iteration.py:simple_iterator", "pyblp/configurations/iteration.py:squarem_iterator", "pyblp/configurations/iteration.py:all_finite"]}
{"id": "C17", "title": "Choice probabilities are probabilities", "statement": "For every agent, logit choice probabilities of inside goods are strictly positive, sum to strictly less than one, and together with the outside option sum to exactly one; without an outside option they sum to one.", "quantifier": "all utilities, numbers of products and agents", "why_tests_cant": "a statement about all real utility vectors", "anchors": ["pyblp/markets/market.py:Market.compute_probabilities"]}
{"id": "C18", "title": "Overflow-safe probabilities are the same probabilities", "statement": "Computing probabilities with the overflow safeguard (subtracting the maximum utility, or group-specific scaling with nesting) gives exactly the same probabilities as without it, for any common shift.", "quantifier": "all utilities, nests, nesting parameters", "why_tests_cant": "an identity over the reals", "anchors": ["pyblp/markets/market.py:Market.compute_probabilities"]}
{"id": "C19", "title": "Nested logit probabilities", "statement": "With nesting parameters in [0,1), probabilities factor into within-group times group probabilities, within-group probabilities sum to one in each group, group and outside probabilities sum to one, and with all nesting parameters zero they equal plain logit probabilities.", "quantifier": "all utilities, nesting structures and parameters below one", "why_tests_cant": "a statement for every nesting structure", "anchors": ["pyblp/markets/market.py:Market.compute_probabilities"]}
{"id": "C20", "title": "Eliminating products", "statement": "Probabilities after eliminating a product equal the probabilities of the model in which that product is absent (zero for the eliminated product), also when the outside option is eliminated; second-choice probabilities are obtained by the same removal.", "quantifier": "all utilities, nests, eliminated products", "why_tests_cant": "quantifies over all products and utilities", "anchors": ["pyblp/markets/market.py:Market.compute_probabilities", "pyblp/markets/economy_results_market.py:EconomyResultsMarket.safely_compute_long_run_diversion_ratios"]}
{"id": "C21", "title": "Closed-form mean utility inverts shares", "statement": "Without random coefficients, the mean utility computed from observed shares (log share minus log outside share, with nesting minus rho times the log within-group share, scaled by epsilon_scale) makes predicted shares equal observed shares exactly, and no other mean utility does.", "quantifier": "all share vectors that are positive and sum to less than one, all nesting structures and parameters in [0,1), all positive scales", "why_tests_cant": "an exact inversion result over the reals", "anchors": ["pyblp/markets/market.py:Market.compute_delta", "pyblp/economies/economy.py:Economy._compute_logit_delta"]}
{"id": "C22", "title": "Contraction fixed points are exactly the share-matching mean utilities", "statement": "A mean utility is a fixed point of the contraction used by Problem.solve if and only if predicted shares equal observed shares, with or without nesting.", "quantifier": "all markets, utilities, agent weights", "why_tests_cant": "an equivalence for every market", "anchors": ["pyblp/markets/market.py:Market.compute_delta"]}
{"id": "C23", "title": "Mean utility is unique", "statement": "For positive agent weights summing to at most one, two mean utility vectors that generate the same market shares are equal; the contraction never increases the sup-norm distance between two vectors.", "quantifier": "all markets and pairs of mean utilities", "why_tests_cant": "uniqueness quantifies over all candidate solutions", "anchors": ["pyblp/markets/market.py:Market.compute_delta", "pyblp/markets/market.py:Market.compute_probabilities"]}
{"id": "C24", "title": "fp_type selects the fixed point", "statement": "fp_type='nonlinear' or 'safe_nonlinear' makes delta be computed by iterating over the exponentiated (nonlinear) fixed point; 'linear' and 'safe_linear' by the linear one.", "quantifier": "all four accepted fp_type strings and all markets", "why_tests_cant": "both versions share a limit, so tests on converged output cannot tell which ran", "anchors": ["pyblp/markets/market.py:Market.compute_delta", "pyblp/economies/economy.py:Economy._validate_fp_type"]}
{"id": "C25", "title": "Share clipping", "statement": "With shares_bounds=(lb, ub), the shares used inside the contraction always lie in [lb, ub], equal the simulated share whenever that is strictly inside, and clipped_shares is True for exactly the products whose share was changed.", "quantifier": "all share vectors and bounds", "why_tests_cant": "boundary behaviour for all bounds", "anchors": ["pyblp/markets/market.py:Market.compute_delta"]}
{"id": "C26", "title": "Demand Jacobian is the true derivative", "statement": "The matrix returned by compute_demand_jacobians is the matrix of derivatives of market shares with respect to the variable: entry (j,k) is the derivative of share j with respect to the variable of product k, with random coefficients, nesting and utility derivatives that differ by agent and product.", "quantifier": "all markets, agents, nests, points", "why_tests_cant": "a calculus identity at every point", "anchors": ["pyblp/markets/market.py:Market.compute_shares_by_variable_jacobian", "pyblp/markets/market.py:Market.compute_capital_lamda_gamma"]}
{"id": "C27", "title": "Derivative of shares with respect to unobserved quality", "statement": "The Jacobian of shares with respect to xi used to differentiate delta is the derivative of shares with respect to the mean utility, for the plain and nested model.", "quantifier": "all markets and points", "why_tests_cant": "a calculus identity at every point", "anchors": ["pyblp/markets/market.py:Market.compute_shares_by_xi_jacobian", "pyblp/markets/market.py:Market.compute_probabilities_by_xi_tensor"]}
{"id": "C28", "title": "Contraction Jacobian", "statement": "The Jacobian handed to Newton-type routines for the linear contraction is the derivative of the contraction.", "quantifier": "all markets, points, nests, epsilon scales", "why_tests_cant": "a wrong Jacobian still converges on easy problems", "anchors": ["pyblp/markets/market.py:Market.compute_delta"]}
{"id": "C29", "title": "Profit derivatives", "statement": "Profit Jacobians and Hessians reported for simulations and by compute_profit_hessians are the first and second derivatives of (p - c) times share.", "quantifier": "all markets, prices, costs", "why_tests_cant": "calculus identities at every point", "anchors": ["pyblp/markets/market.py:Market.compute_profit_jacobian", "pyblp/markets/market.py:Market.compute_profit_hessian"]}
{"id": "C30", "title": "Markups solve the first order conditions", "statement": "Marginal costs returned by compute_costs are such that every product's first order condition of its owner's profit holds at the observed prices.", "quantifier": "all markets, ownership matrices, demand systems with an invertible intra-firm Jacobian", "why_tests_cant": "for every ownership matrix including partial, asymmetric ownership", "anchors": ["pyblp/markets/market.py:Market.compute_eta", "pyblp/markets/economy_results_market.py:EconomyResultsMarket.safely_compute_costs"]}
{"id": "C31", "title": "The zeta-markup fixed point is an equilibrium and agrees with eta", "statement": "Prices are a fixed point of the zeta-markup contraction if and only if they satisfy the pricing first order conditions, hence if and only if compute_costs at those prices returns the costs used.", "quantifier": "all markets, ownership matrices, prices", "why_tests_cant": "an equivalence at every price vector", "anchors": ["pyblp/markets/market.py:Market.compute_equilibrium_prices", "pyblp/markets/market.py:Market.compute_eta"]}
{"id": "C32", "title": "Non-convergence of prices is reported", "statement": "Whenever the price iteration does not converge in a market, compute_prices reports an equilibrium price convergence error for it.", "quantifier": "all outcomes of the iteration routine", "why_tests_cant": "requires forcing non-convergence; the code path silently drops it", "anchors": ["pyblp/markets/economy_results_market.py:EconomyResultsMarket.safely_compute_prices", "pyblp/utilities/basics.py:SolverStats"]}
{"id": "C33", "title": "Diversion ratios", "statement": "Each row of the diversion ratio matrix sums to one, the off-diagonal entry (j,k) is the fraction of sales lost by j that is diverted to k, and the diagonal is diversion to the outside option.", "quantifier": "all markets with a nonzero own derivative", "why_tests_cant": "transposition is invisible in symmetric examples", "anchors": ["pyblp/markets/economy_results_market.py:EconomyResultsMarket.safely_compute_diversion_ratios"]}
{"id": "C34", "title": "Long-run diversion ratios", "statement": "Each row of the long-run diversion matrix sums to one, and entry (j,k) is the increase in k's share when j is removed divided by j's share.", "quantifier": "all markets", "why_tests_cant": "for all demand systems", "anchors": ["pyblp/markets/economy_results_market.py:EconomyResultsMarket.safely_compute_long_run_diversion_ratios"]}
{"id": "C35", "title": "Elasticities", "statement": "Elasticities are derivatives times the variable over the share; with respect to the mean utility of a plain logit they are delta_k(1{j=k} - s_k); aggregate elasticity is the change in the total inside share over the factor.", "quantifier": "all markets", "why_tests_cant": "for all demand systems", "anchors": ["pyblp/markets/economy_results_market.py:EconomyResultsMarket.safely_compute_elasticities", "pyblp/markets/economy_results_market.py:EconomyResultsMarket.safely_compute_aggregate_elasticity"]}
{"id": "C36", "title": "HHI bounds and mergers", "statement": "HHI is between 10000/F and 10000 for F firms with positive total share, equals 10000 for a monopoly, and merging two firms never lowers it.", "quantifier": "all share vectors and firm IDs", "why_tests_cant": "an inequality over all share vectors", "anchors": ["pyblp/markets/economy_results_market.py:EconomyResultsMarket.safely_compute_hhi"]}
{"id": "C37", "title": "Consumer surplus", "statement": "Reported consumer surplus equals the log-sum formula divided by the price coefficient regardless of the internal rescaling that avoids overflow, also with nesting, and eliminating products never raises it when the price coefficient is negative.", "quantifier": "all utilities, nests, rescalings", "why_tests_cant": "an identity over the reals", "anchors": ["pyblp/markets/economy_results_market.py:EconomyResultsMarket.safely_compute_consumer_surplus"]}
{"id": "C38", "title": "Half-vectorization operators", "statement": "For every matrix, the elimination matrix times vec is vech, the duplication matrix times vech of a symmetric matrix is its vec, commutation times vec is vec of the transpose, and vech_to_lower/vech_to_full invert vech on lower-triangular/symmetric matrices.", "quantifier": "all sizes and matrices", "why_tests_cant": "index arithmetic for every size", "anchors": ["pyblp/utilities/algebra.py"]}
{"id": "C39", "title": "Inversion failures are reported", "statement": "When a matrix cannot be inverted and a fallback is used, the caller is told which replacement was used.", "quantifier": "all outcomes of the two inversion attempts", "why_tests_cant": "requires forcing numerical failure of library inversions", "anchors": ["pyblp/utilities/algebra.py:approximately_invert"]}
{"id": "C40", "title": "Linear IV-GMM estimates", "statement": "The concentrated-out linear parameters satisfy the normal equations of the GMM problem, minimise the quadratic form for every W, and with exactly as many instruments as regressors do not depend on W.", "quantifier": "all data matrices, instruments, weighting matrices", "why_tests_cant": "an optimality statement over all parameter vectors", "anchors": ["pyblp/utilities/statistics.py:IV"]}
{"id": "C41", "title": "Moment covariances", "statement": "Moment covariance matrices are symmetric positive semidefinite for all three types, with and without centring; robust equals clustered when every observation is its own cluster.", "quantifier": "all moments, cluster assignments", "why_tests_cant": "for all data", "anchors": ["pyblp/utilities/statistics.py:compute_gmm_moment_covariances"]}
{"id": "C42", "title": "Parameter covariances", "statement": "With an invertible and efficient weighting matrix the sandwich covariance equals the unadjusted one; the covariance matrix is symmetric, and positive semidefinite for the sandwich.", "quantifier": "all Jacobians, weights, covariances", "why_tests_cant": "a matrix identity", "anchors": ["pyblp/utilities/statistics.py:compute_gmm_parameter_covariances"]}
{"id": "C43", "title": "Parameter vector round trip", "statement": "Compressing the parameter matrices to theta and expanding back returns the same matrices; expanding any theta and compressing returns theta; fixed elements never change and are never in theta.", "quantifier": "all parameter configurations and all theta", "why_tests_cant": "every pattern of fixed and free elements", "anchors": ["pyblp/parameters.py:Parameters.compress", "pyblp/parameters.py:Parameters.expand"]}
{"id": "C44", "title": "Which parameters are estimated", "statement": "An element of sigma or pi is estimated if and only if its bounds differ (zeros are fixed by default and stay zero); linear parameters given as NaN are concentrated out; each element is in exactly one of the fixed, unfixed, eliminated sets, and theta's order is sigma (lower triangle row-wise), pi, rho, phi, beta, gamma.", "quantifier": "all configurations", "why_tests_cant": "every pattern of zeros, NaNs and bounds", "anchors": ["pyblp/parameters.py:Parameters"]}
{"id": "C45", "title": "Parameter bounds", "statement": "After initialisation every free parameter's starting value lies within its bounds; user bounds that exclude the starting value are rejected; with an optimizer without bounds support only bounds that fix a parameter survive.", "quantifier": "all bounds and initial values", "why_tests_cant": "every combination of bounds, NaNs and optimizers", "anchors": ["pyblp/parameters.py:Parameters.initialize_bounds"]}
{"id": "C46", "title": "Standard errors land on the right parameter", "statement": "Each free parameter's standard error is the square root of its own diagonal covariance over N and appears at that parameter's location; fixed parameters get NaN.", "quantifier": "all configurations", "why_tests_cant": "every pattern of fixed and free elements", "anchors": ["pyblp/parameters.py:Parameters.expand", "pyblp/results/problem_results.py:ProblemResults"]}
{"id": "C47", "title": "Projected gradient and reduced Hessian", "statement": "The projected gradient is zero if and only if theta satisfies the first order (KKT) conditions of the bound-constrained problem; rows and columns of the reduced Hessian are zero exactly for parameters at a bound.", "quantifier": "all gradients, bounds and parameter vectors in bounds", "why_tests_cant": "boundary cases for every coordinate", "anchors": ["pyblp/economies/problem.py:Progress"]}
{"id": "C48", "title": "GMM steps", "statement": "method='1s' performs exactly one optimisation, '2s' exactly two, each optionally preceded by one initial update without optimisation; step k+1 uses the weighting matrix updated at step k and starts at step k's estimates; cumulative counts are the sums over steps and cumulative_converged is true iff all steps converged.", "quantifier": "all methods, initial_update flags and step outcomes", "why_tests_cant": "every combination of outcomes", "anchors": ["pyblp/economies/problem.py:ProblemEconomy.solve", "pyblp/results/problem_results.py:ProblemResults"]}
{"id": "C49", "title": "Error behaviour of the objective", "statement": "With error_behavior='raise' any error raises; with 'revert' non-finite values are replaced by the last computed ones and the objective is scaled by error_punishment; with 'punish' the objective is 1 times error_punishment and the gradient zero; without errors the values are unchanged.", "quantifier": "all error lists, values, histories", "why_tests_cant": "every sequence of failing evaluations", "anchors": ["pyblp/economies/problem.py:ProblemEconomy._compute_progress"]}
{"id": "C50", "title": "Reversion keeps values finite", "statement": "If the initial values are finite then after any sequence of objective evaluations with any non-finite market outputs, delta, costs, Jacobians and the objective are finite, elements that were finite are kept and a reversion error is reported exactly when an element was replaced.", "quantifier": "all sequences of evaluations and all patterns of NaN", "why_tests_cant": "every NaN pattern", "anchors": ["pyblp/economies/problem.py:ProblemEconomy._compute_progress"]}
{"id": "C51", "title": "Starting values of delta", "statement": "With delta_behavior='first' every evaluation in a step starts at that step's initial delta, with 'last' at the delta computed by the previous evaluation, with 'logit' at the logit solution for the current rho.", "quantifier": "all histories of evaluations", "why_tests_cant": "a property of histories", "anchors": ["pyblp/economies/problem.py:ProblemEconomy._compute_progress"]}
{"id": "C52", "title": "Dynamic-panel moments", "statement": "Innovations are x_j minus phi times the lag (plus the cross term), zero for initial periods; differenced innovations are the change in innovations, zero without two lags; the reported derivative with respect to phi is the true derivative, including for differenced innovations.", "quantifier": "all panels, variables, phi", "why_tests_cant": "every panel structure", "anchors": ["pyblp/economies/economy.py:Economy._compute_difference", "pyblp/economies/economy.py:Economy._compute_difference_derivative"]}
{"id": "C53", "title": "Simulated structural errors follow the autoregression", "statement": "In Simulation with lag_indices, every non-initial row's structural error equals its innovation plus phi times the error at its lag, and the filling loop terminates.", "quantifier": "all accepted lag structures, innovations, phi", "why_tests_cant": "every chain structure and length", "anchors": ["pyblp/economies/simulation.py:Simulation.__init__", "pyblp/primitives.py:Products"]}
{"id": "C54", "title": "Replacing exogenous characteristics", "statement": "After Simulation.replace_exogenous, the linear index with the replaced characteristic reproduces the mean utility (and transformed cost) implied by shares and prices exactly.", "quantifier": "all data, parameters with a nonzero coefficient", "why_tests_cant": "an identity over the reals", "anchors": ["pyblp/economies/simulation.py:Simulation.replace_exogenous"]}
{"id": "C55", "title": "Bootstrapped parameters respect bounds", "statement": "Every bootstrapped parameter lies within the estimation bounds, fixed parameters keep their value and concentrated-out ones come from their own draw.", "quantifier": "all draws and bounds", "why_tests_cant": "every random draw", "anchors": ["pyblp/results/problem_results.py:ProblemResults.bootstrap"]}
{"id": "C56", "title": "Micro computation in chunks", "statement": "Splitting micro computations into chunks changes neither micro moment values, covariances nor their Jacobians.", "quantifier": "all agents, chunk counts", "why_tests_cant": "every chunk count and agent set", "anchors": ["pyblp/markets/market.py:Market.compute_micro_contributions", "pyblp/options.py"]}
{"id": "C57", "title": "Micro moment covariances", "statement": "The estimated micro moment covariance matrix is symmetric and positive semidefinite, and is zero between parts of different datasets.", "quantifier": "all micro datasets and parts", "why_tests_cant": "for all data", "anchors": ["pyblp/economies/problem.py:ProblemEconomy._compute_progress", "pyblp/markets/market.py:Market.compute_micro_contributions"]}
{"id": "C58", "title": "Micro moment parts are shared consistently", "statement": "Micro moments that share a part use one computed value for it; parts are numbered by first appearance and every moment's function receives its own parts in its own order.", "quantifier": "all lists of micro moments", "why_tests_cant": "every sharing pattern", "anchors": ["pyblp/micro.py:Moments"]}
{"id": "C59", "title": "Product rules and sparse grids", "statement": "Product quadrature has n^d nodes with weights summing to one and integrates products exactly as products of one-dimensional sums; the sparse-grid (Smolyak) rule has weights summing to one.", "quantifier": "all dimensions, sizes and one-dimensional rules with unit total weight", "why_tests_cant": "every dimension", "anchors": ["pyblp/configurations/integration.py:product_rule", "pyblp/configurations/integration.py:sparse_grid"]}
{"id": "C60", "title": "Halton draws", "statement": "Halton points lie in [0,1), the k-th point in a base is the radical inverse of its index, and different markets use disjoint index ranges in one long sequence.", "quantifier": "all bases, sizes, discards", "why_tests_cant": "every index", "anchors": ["pyblp/configurations/integration.py:halton"]}
{"id": "C61", "title": "Enumeration of grid levels", "statement": "The sequences used to build sparse grids are exactly the vectors of positive integers with the required sum, each once.", "quantifier": "all dimensions and sums", "why_tests_cant": "a combinatorial enumeration for every size", "anchors": ["pyblp/configurations/integration.py:same_size_sequences"]}
{"id": "C62", "title": "Finite differences", "statement": "Central differences used for Jacobians and Hessians are exact for affine and quadratic functions, for every step size. For other smooth functions their error is at most the squared step times a bound on third derivatives over 24, plus twice the error in evaluating the function over the step. Second differences equal a second derivative at a point within half a step, so they converge to continuous second derivatives as the step shrinks.", "quantifier": "all functions with the stated derivatives, points, coordinates, steps and evaluation errors", "why_tests_cant": "a bound over all smooth functions and all steps", "anchors": ["pyblp/utilities/basics.py:compute_finite_differences", "pyblp/utilities/basics.py:compute_second_finite_differences"]}
{"id": "C63", "title": "Accepted shares are interior", "statement": "If product data are accepted then every share is strictly between zero and one and every market's outside share is strictly positive; otherwise ValueError naming exactly the offending markets is raised.", "quantifier": "all share columns", "why_tests_cant": "every table", "anchors": ["pyblp/primitives.py:Products"]}
{"id": "C64", "title": "Lag indices are validated", "statement": "Product data whose lag_indices contain a value outside 0..N-1 are rejected.", "quantifier": "all lag columns", "why_tests_cant": "operator precedence shows only on mixed inputs", "anchors": ["pyblp/primitives.py:Products"]}
{"id": "C65", "title": "Optimizer cache", "statement": "The objective and gradient handed to SciPy always come from one evaluation at exactly the requested point, and consecutive requests at one point evaluate the model once.", "quantifier": "all request sequences", "why_tests_cant": "every interleaving of objective and gradient requests", "anchors": ["pyblp/configurations/optimization.py:scipy_optimizer"]}
{"id": "C66", "title": "Test statistics do not depend on objective scaling", "statement": "Hansen's J, the distance statistic and the Wald and LM statistics are the documented expressions regardless of scale_objective; J is nonnegative for a positive semidefinite W.", "quantifier": "all moments, W, N and scale flags", "why_tests_cant": "an identity for all results", "anchors": ["pyblp/results/problem_results.py:ProblemResults.run_hansen_test", "pyblp/results/problem_results.py:ProblemResults.run_distance_test", "pyblp/results/problem_results.py:ProblemResults.run_wald_test", "pyblp/results/problem_results.py:ProblemResults.run_lm_test"]}
{"id": "C67", "title": "Reported errors are deduplicated in order", "statement": "A list of errors is reported with each distinct error once, in order of first occurrence; with several workers only the order may change; a single error is reported as itself.", "quantifier": "all error lists and completion orders", "why_tests_cant": "every order", "anchors": ["pyblp/exceptions.py:MultipleErrors", "pyblp/utilities/basics.py:Error"]}
{"id": "C68", "title": "Agent data stay aligned", "statement": "Each row of the agents used in estimation combines demographics, agent IDs, availability, nodes and weights of the same agent of the same market, also when an integration configuration replaces the nodes.", "quantifier": "all agent tables and integration sizes", "why_tests_cant": "only visible on unsorted agent data", "anchors": ["pyblp/primitives.py:Agents", "pyblp/primitives.py:build_demographics"]}
{"id": "C69", "title": "Optimal instruments use the error variance", "statement": "With method='normal' and no supply side, simulated demand errors have the variance of the estimated ones.", "quantifier": "all estimated errors and normal draws", "why_tests_cant": "a distributional statement", "anchors": ["pyblp/results/problem_results.py:ProblemResults.compute_optimal_instruments"]}
{"id": "C70", "title": "Cost updates", "statement": "When marginal costs depend on shares, costs at new shares equal old costs plus the change in the linear index (in logs if costs_type is 'log'); updating to new shares and back restores the costs.", "quantifier": "all share changes and cost specifications", "why_tests_cant": "round trips over all reals", "anchors": ["pyblp/markets/market.py:Market.update_costs_with_variable"]}
{"id": "C71", "title": "Numerical warnings become errors", "statement": "A wrapped market computation reports each kind of floating-point problem that occurred as an error and otherwise returns exactly the computation's result.", "quantifier": "all outcomes of the wrapped computation", "why_tests_cant": "every combination of floating-point events", "anchors": ["pyblp/utilities/basics.py:NumericalErrorHandler"]}
{"id": "C72", "title": "Passthrough", "statement": "The passthrough matrix is the derivative of equilibrium prices with respect to costs implied by the first order conditions.", "quantifier": "all markets with symmetric ownership and demand", "why_tests_cant": "an implicit-function identity", "anchors": ["pyblp/markets/economy_results_market.py:EconomyResultsMarket.safely_compute_passthrough"]}
{"id": "C73", "title": "Loading matrices from data", "statement": "Loading a field by name returns that field as columns; when the field is absent but name0, name1, ... are present they are stacked in index order with no gap; otherwise nothing is returned, and a field present under its own name takes precedence. Loading a field from the output of data_to_dict gives back its columns unless another field is named like a further column of it.", "quantifier": "all field name sets", "why_tests_cant": "adversarial field names", "anchors": ["pyblp/utilities/basics.py:extract_matrix"]}
{"id": "C74", "title": "Derivative used by Jacobian-based price solvers", "statement": "The Jacobian handed to fixed point routines that need one when solving for equilibrium prices is the derivative of the price contraction that is being iterated, also when marginal costs depend on shares.", "quantifier": "all markets, ownership matrices, differentiable demand and cost specifications, prices", "why_tests_cant": "an identity of derivatives over the reals, with several chain-rule terms that vanish in simple examples", "anchors": ["pyblp/markets/market.py:Market.compute_equilibrium_prices"]}
{"id": "C75", "title": "Gradient with concentrated-out linear parameters", "statement": "The gradient reported with the GMM objective is the derivative of that objective with respect to theta, including the effect through linear parameters that are concentrated out, whether or not there are micro or covariance moments.", "quantifier": "all data, weighting matrices and differentiable parametrisations of mean utilities, costs and micro moments", "why_tests_cant": "an envelope identity that must hold for every weighting matrix", "anchors": ["pyblp/economies/problem.py:ProblemEconomy._compute_progress", "pyblp/utilities/statistics.py:IV.estimate", "pyblp/utilities/statistics.py:compute_gmm_moments_jacobian_mean"]}
{"id": "C76", "title": "Sensitivity of estimates to moments", "statement": "The reported parameter sensitivity is how GMM estimates respond to perturbations of the moments: when averaged moments are linear in parameters, adding a perturbation to the moments moves the minimiser of the objective by the sensitivity matrix times the perturbation.", "quantifier": "all weighting matrices, moment Jacobians and perturbations", "why_tests_cant": "an identity over all matrices", "anchors": ["pyblp/utilities/statistics.py:compute_gmm_parameter_sensitivity"]}
{"id": "C77", "title": "Latin Hypercube Sampling stratifies every dimension", "statement": "With the 'lhs' integration configuration, each dimension of the underlying uniform draws has exactly one draw in each of the equally sized intervals into which the unit interval is divided, so nodes have no empty or doubled strata in any margin, whatever the permutation and uniform draws; all draws are in the unit interval.", "quantifier": "every number of draws, every permutation and every vector of uniform draws from the random number generator", "why_tests_cant": "A test checks a few seeds and sizes; stratification must hold for every permutation and every realisation of uniform draws.", "anchors": ["pyblp/configurations/integration.py:lhs"]}
{"id": "C78", "title": "Quadrature tables integrate polynomials against the normal distribution", "statement": "The one-dimensional quadrature rules behind the 'product', 'nested_product', 'grid' and 'nested_grid' integration configurations exist for sizes 1 to 25 and larger sizes raise a ValueError. The rule of a level integrates every power up to twice the level minus one against the standard normal distribution up to one part in 10^13, so product rules in any number of dimensions integrate all monomials with such exponents up to a correspondingly small error. Rules that are not nested have as many nodes as their level, and positive weights; nested rules contain the nodes of all lower levels.", "quantifier": "all levels, nested or not, all exponents up to the degree of the rule and all numbers of dimensions", "why_tests_cant": "A test compares a few integrals; a wrong digit in one of a thousand table entries only shows for the levels and powers that were not tried.", "anchors": ["pyblp/configurations/integration.py:get_quadrature_data", "pyblp/configurations/integration.py:product_rule"]}
{"id": "C79", "title": "Default instruments of simulated problems match the problem's data", "statement": "When instruments are not given, a problem built from simulation results gets demand- and supply-side instruments that are the sums of characteristics over other products of the same firm and over products of rival firms, computed from the product data the problem is built with, so they equal the instruments a user would build from the problem's products.", "quantifier": "all simulations, both ways of replacing variables and all market structures", "why_tests_cant": "A test builds a problem from one simulation; whether instruments and product data agree depends on which variables were replaced before.", "anchors": ["pyblp/results/simulation_results.py:SimulationResults.to_problem", "pyblp/results/simulation_results.py:SimulationResults._compute_default_instruments", "pyblp/economies/simulation.py:Simulation.replace_exogenous"]}
{"id": "C80", "title": "Optimal instruments formula", "statement": "For each product and parameter, the covariance matrix of estimated errors times the computed optimal instruments is the Jacobian averaged over draws; realizations replace estimated errors by drawn ones; default expected prices are least squares fits; and to_problem drops exactly the documented columns.", "quantifier": "all estimated errors, Jacobians, numbers of draws and lists of dropped columns", "why_tests_cant": "must hold for every data set and every choice of dropped columns", "anchors": ["pyblp/results/problem_results.py:ProblemResults.compute_optimal_instruments", "pyblp/results/problem_results.py:ProblemResults._compute_realizations", "pyblp/results/optimal_instrument_results.py:OptimalInstrumentResults.to_problem"]}
{"id": "C81", "title": "Probabilities of first and second choices in micro datasets", "statement": "In a micro dataset, each user-supplied sampling weight is multiplied by the integration weight of its agent and by the probability that the agent makes the first choice or, for second choice data, that it makes the first choice and would make the second if the first (or all products with the same ID) were not available. These products are never negative and sum over second choices to the probability of the first choice.", "quantifier": "all markets, agents, choice sets, nesting structures, shapes of weights and product IDs", "why_tests_cant": "must hold for every utility vector, choice set and nesting structure; tests compare a handful of simulated datasets", "anchors": ["pyblp/markets/market.py:Market.compute_micro_dataset_contributions", "pyblp/micro.py:MicroDataset", "docs/background.rst"]}
{"id": "C82", "title": "Derivatives of micro dataset contributions", "statement": "What pyblp computes as derivatives of contributions of agents and choices to micro moments, and of denominators of micro moments, with respect to a parameter are the derivatives of the contributions that it computes when the parameter changes and unobserved characteristics keep market shares fixed, also where denominators are treated as constants.", "quantifier": "all markets, parameters, datasets with first or second choices, weights and share-matching mean utilities", "why_tests_cant": "tests compare with finite differences at a few parameter values, and truncation or treating denominators as constant matters only for some datasets", "anchors": ["pyblp/markets/market.py:Market.compute_micro_dataset_contributions", "pyblp/markets/market.py:Market.update_probabilities_by_parameter_tangent_mapping"]}
{"id": "C83", "title": "Derivatives of probabilities with respect to parameters", "statement": "What pyblp computes as derivatives of choice probabilities and of probabilities conditional on a nest with respect to an unfixed parameter (a linear coefficient, an entry of sigma or pi with linear, log or logit random coefficients, or a nesting parameter) are the derivatives of the probabilities it computes.", "quantifier": "all markets, tastes, agents, parameters, nesting structures, availabilities and eliminated products", "why_tests_cant": "tests compare with finite differences for a few configurations", "anchors": ["pyblp/markets/market.py:Market.compute_probabilities_by_parameter_tangent", "pyblp/markets/market.py:Market.compute_random_coefficients", "pyblp/markets/market.py:Market.compute_mu", "pyblp/markets/market.py:Market.compute_shares_by_theta_jacobian"]}
{"id": "C84", "title": "Derivatives of unobserved characteristics with respect to parameters", "statement": "For every parameter value, mean utilities that keep market shares equal to observed shares exist nearby, depend on the parameter smoothly, and their derivative is the Jacobian of xi that pyblp reports; total derivatives of probabilities are those of probabilities at these mean utilities, and integrate to zero.", "quantifier": "all markets, parameters, and functions that give share-matching mean utilities", "why_tests_cant": "an implicit function for every market and parameter; tests can only sample finite differences", "anchors": ["pyblp/markets/market.py:Market.compute_xi_by_theta_jacobian", "pyblp/markets/market.py:Market.compute_shares_by_xi_jacobian", "pyblp/markets/market.py:Market.update_probabilities_by_parameter_tangent_mapping"]}
{"id": "C85", "title": "Derivatives of marginal costs with respect to parameters", "statement": "When a parameter in sigma, pi, rho, beta or gamma is estimated by solve, the derivative of the supply-side unobserved characteristic (clipped and possibly log-transformed marginal costs minus X3 times gamma) with respect to it, which is used for gradients and standard errors, is the derivative of what solve would compute if the parameter were changed and mean utilities were solved for again, for linear and log-linear costs, with or without nesting, and for each type of random coefficient. For marginal costs outside of their bounds it is zero.", "quantifier": "For all markets, preferences with prices in X1, in X2 or both, ownership matrices, kinds of parameter and parameter values for which shares are matched and the intra-firm matrix is invertible.", "why_tests_cant": "The derivative is an analytical expression that combines the implicit function theorem for mean utilities with the derivative of an inverse matrix. Finite differences check it at a few points and up to some tolerance.", "anchors": ["pyblp/markets/market.py:Market.compute_omega_by_theta_jacobian", "pyblp/markets/market.py:Market.compute_eta_by_theta_jacobian", "pyblp/markets/market.py:Market.compute_capital_lamda_gamma_by_parameter_tangent", "pyblp/markets/market.py:Market.compute_utility_derivatives_by_parameter_tangent", "pyblp/markets/problem_market.py:ProblemMarket.solve", "pyblp/markets/problem_market.py:ProblemMarket.safely_compute_tilde_costs"]}
{"id": "C86", "title": "Equilibrium price iteration stops on first order conditions", "statement": "The weighted step of the price contraction equals, product by product, the derivative of the profit that counts when setting that price; hence when simple or SQUAREM iteration reports convergence, the returned prices are one contraction step away from prices at which every first order condition holds up to the absolute tolerance.", "quantifier": "all markets, ownership matrices, cost functions, starting prices, tolerances and evaluation budgets", "why_tests_cant": "must hold at whatever point the iteration happens to stop", "anchors": ["pyblp/markets/market.py:Market.compute_equilibrium_prices", "pyblp/configurations/iteration.py:Iteration", "docs/background.rst"]}
{"id": "C87", "title": "Micro scores are derivatives of log probabilities", "statement": "compute_micro_scores returns, for each observation and each parameter, the derivative of the logarithm of the observation's conditional probability with respect to the parameter, where unobserved product characteristics adjust so that market shares stay at what they are. The probability is the surveyed probability of the observation's choices, summed over the rows that integrate over its unobserved heterogeneity, divided by the sum of surveyed probabilities over all markets, agents and choices of the dataset. The score is nan exactly if this probability is zero.", "quantifier": "For all economies, datasets, survey weights, first and second choices, micro data and parameters.", "why_tests_cant": "It is about a derivative of an implicitly defined function at every point, and about every way in which observations can be distributed across markets.", "anchors": ["pyblp/results/economy_results.py:EconomyResults.compute_micro_scores", "pyblp/results/economy_results.py:EconomyResults._compute_scores", "pyblp/markets/economy_results_market.py:EconomyResultsMarket.safely_compute_score_denominator_contributions", "pyblp/markets/economy_results_market.py:EconomyResultsMarket.safely_compute_score_numerator_contributions"]}
{"id": "C88", "title": "Micro scores line up with observations", "statement": "compute_micro_scores returns one score per observation, in the order in which observations appear in micro data. The score of an observation is computed from all of its rows, in its own market, and from the choices that its indices are documented to mean. Micro data in which IDs are not sorted, in which rows of an observation disagree about markets or choices, with markets that the dataset does not support, or with indices of choices that do not exist are rejected with an exception. compute_agent_scores has at the position of a choice what an observation with this choice has.", "quantifier": "For all micro data, any number of rows per observation and any assignment of observations to markets.", "why_tests_cant": "Alignment must hold for all orders of rows and markets. A misaligned result has the right shape and plausible values.", "anchors": ["pyblp/results/economy_results.py:EconomyResults.compute_micro_scores", "pyblp/results/economy_results.py:EconomyResults.compute_agent_scores", "pyblp/results/economy_results.py:EconomyResults._compute_scores", "pyblp/primitives.py:MicroAgents", "pyblp/markets/economy_results_market.py:EconomyResultsMarket.safely_compute_score_numerator_contributions"]}
{"id": "C89", "title": "Simulated micro data", "statement": "simulate_micro_data returns as many rows as the dataset has observations, numbered in order. Each row stands for an agent of one of the dataset's markets and for choices whose surveyed probability is positive, with indices that mean what compute_micro_scores takes them to mean. An observation is of an agent and choices with a probability equal to integration weight times survey weight times choice probability, divided by the sum of these over all markets, agents and choices of the dataset. With the same seed, the same data are simulated.", "quantifier": "For all economies, datasets, survey weights, numbers of observations and random draws.", "why_tests_cant": "It is about a distribution over all draws, and about indices for every number of products and agents in every market. Orders of sets differ across processes, not within one.", "anchors": ["pyblp/results/economy_results.py:EconomyResults.simulate_micro_data", "pyblp/markets/market.py:Market.compute_micro_dataset_contributions"]}
{"id": "C90", "title": "Simulated prices and shares can be inverted", "statement": "Data returned by Simulation.replace_endogenous are those of the model: in every row, delta is the mean utility at the new price, the share is the market share at the new prices of the market, and with constant_costs=False the cost is the marginal cost at the new share. So a problem with these data, at the parameters of the simulation, recovers the unobserved characteristics xi, and if the iteration over prices reached a fixed point also the marginal costs and omega; reported profit gradients are then zero.", "quantifier": "For all simulations, formulations, parameters, product orders, iteration configurations, given or default costs and prices, and all orders in which processes finish.", "why_tests_cant": "It is a round trip through two different programs that must close for all data; tests compare estimates of a few simulated data sets with loose tolerances.", "anchors": ["pyblp/economies/simulation.py:Simulation.replace_endogenous", "pyblp/markets/simulation_market.py:SimulationMarket.compute_endogenous", "pyblp/markets/market.py:Market.compute_equilibrium_prices", "pyblp/markets/market.py:Market.update_delta_with_variable", "pyblp/markets/market.py:Market.update_costs_with_variable", "pyblp/results/simulation_results.py:SimulationResults.to_problem"]}
{"id": "C91", "title": "Standard errors of sigma times its transpose", "statement": "Reported standard errors of each element of sigma * sigma' are those of the delta method: the square root of g' V g / N, in which V are covariances of the estimated parameters theta and g is the gradient of the element with respect to theta. Fixed elements of sigma contribute nothing, and the matrix of standard errors is symmetric.", "quantifier": "For all numbers of random coefficients, all patterns of fixed, zero and estimated elements of sigma, all other parameters in theta, all estimates and all covariance matrices.", "why_tests_cant": "It combines vectorization operators whose sizes grow with the number of random coefficients with positions of parameters that depend on which of them are fixed; tests only compare a few shapes.", "anchors": ["pyblp/utilities/statistics.py:compute_sigma_squared_vector_covariances", "pyblp/parameters.py:Parameters.extract_sigma_vector_covariances", "pyblp/results/problem_results.py:ProblemResults.sigma_squared_se"]}
{"id": "C92", "title": "Absorbing fixed effects is including them", "statement": "With the default weighting matrix, a problem that absorbs demand- or supply-side fixed effects has the same linear parameters, structural errors, objective and gradient, at every guess of the nonlinear parameters, as the problem that has the fixed effects among its regressors and instruments. Without a supply side, this is still so after the weighting matrix is updated with unadjusted moment covariances. When exogenous characteristics are not added to instruments it requires instruments that the user residualized.", "quantifier": "For all numbers of products, regressors, instruments and fixed effects on each side, all data, all residualization algorithms that meet their contract, and all values of delta, transformed marginal costs and their derivatives.", "why_tests_cant": "It equates two matrix problems of different sizes for all data; tests compare a few simulated problems up to a tolerance.", "anchors": ["pyblp/configurations/formulation.py:Absorb.__call__", "pyblp/economies/problem.py:Problem.__init__", "pyblp/economies/problem.py:ProblemEconomy.solve", "pyblp/economies/problem.py:ProblemEconomy._compute_progress"]}
{"id": "C93", "title": "The reported Jacobian of moments", "statement": "Each element of `moments_jacobian` is the derivative of an averaged moment (in levels, innovations or differenced innovations, a covariance moment, or a micro moment) with respect to an estimated parameter, linear parameters that are concentrated out included, other parameters held fixed; so the standard errors built from it are those of the GMM formula.", "quantifier": "all data, panels, moment types, instruments, values of phi, weighting matrices and differentiable parametrisations of mean utilities, costs and micro moments", "why_tests_cant": "a derivative identity for every moment, parameter and data set; tests compare results of a few problems", "anchors": ["pyblp/results/problem_results.py:ProblemResults._compute_mean_G", "pyblp/results/problem_results.py:ProblemResults", "pyblp/economies/problem.py:ProblemEconomy._compute_progress", "pyblp/utilities/statistics.py:IV.estimate"]}
{"id": "C94", "title": "The gradient with moments of every type", "statement": "With moments in levels, innovations or differenced innovations, with covariance moments, and with estimated autocorrelations, the reported objective is the weighted quadratic form of averaged moments at theta and the linear parameters concentrated out given theta, and each element of the reported gradient, computed analytically or with finite differences, is (up to the accuracy of differences) its derivative.", "quantifier": "all panels, moment types, data, weighting matrices, values of phi and differentiable parametrisations of mean utilities, costs and micro moments", "why_tests_cant": "an identity for a regression whose regressors themselves move with the parameter, for all data", "anchors": ["pyblp/economies/problem.py:ProblemEconomy._compute_progress", "pyblp/economies/economy.py:Economy._compute_difference", "pyblp/economies/economy.py:Economy._compute_difference_derivative", "pyblp/utilities/statistics.py:IV"]}
{"id": "C95", "title": "Estimates do not depend on units or order of instruments", "statement": "Two problems whose instruments within each set (demand-side, supply-side, covariance) are invertible combinations of each other, such as the same instruments in other units or in another order, give the same estimates, standard errors, objective values, gradients and iteration counts in each GMM step, when both use default weighting matrices or weighting matrices that correspond to each other.", "quantifier": "all problems, moment types, covariance types, methods, optimizers, initial values and invertible combinations", "why_tests_cant": "an equality between two whole estimation runs for every invertible matrix and every deterministic optimizer", "anchors": ["pyblp/economies/problem.py:ProblemEconomy.solve", "pyblp/economies/problem.py:ProblemEconomy._compute_progress", "pyblp/results/problem_results.py:ProblemResults", "pyblp/utilities/statistics.py:IV", "pyblp/utilities/statistics.py:compute_gmm_moment_covariances", "pyblp/utilities/statistics.py:compute_gmm_weights"]}
{"id": "C96", "title": "The reported Hessian", "statement": "The reported Hessian is symmetric and is, up to the accuracy of central differences, the matrix of second derivatives of the objective at the estimate: its entries are differences of the gradient that would be reported at neighbouring parameters, averaged with the transpose, and go to second derivatives as the step of differences goes to zero.", "quantifier": "all problems, moment types, weighting matrices, estimates and steps of differences", "why_tests_cant": "an identity between numbers computed at several parameter values, for all of them and in the limit", "anchors": ["pyblp/economies/problem.py:ProblemEconomy._compute_progress", "pyblp/economies/problem.py:ProblemEconomy.solve", "pyblp/utilities/basics.py:compute_finite_differences", "pyblp/utilities/statistics.py:IV"]}
{"id": "C97", "title": "What multi-step GMM computes", "statement": "The first GMM step minimises the objective with the given weighting matrix, or with the default one, which is the inverse of averages of products of instruments within each set. Each later step starts from the estimates of the step before and weights moments by the inverse of their covariances (unadjusted, robust or clustered, centred if asked, with micro moments' covariances times the number of observations and covariances from simulation) at these estimates. In each step the optimizer sees the weighted quadratic form of averaged moments with linear parameters that minimise it given theta. Reported standard errors are square roots of diagonal elements of (G'WG)^-1 G'WSWG (G'WG)^-1 / N, or if unadjusted (G'WG)^-1 / N, with G the Jacobian of averaged moments in all parameters at the estimates, S covariances of the type asked for and never centred, and W replaced by the inverse of S for unadjusted standard errors in the first step.", "quantifier": "all problems, moment types, covariance types, methods, optimizers, initial values and steps", "why_tests_cant": "a specification of every step of every run, for every optimizer and every function that markets compute", "anchors": ["pyblp/economies/problem.py:ProblemEconomy.solve", "pyblp/economies/problem.py:ProblemEconomy._compute_progress", "pyblp/results/problem_results.py:ProblemResults", "pyblp/utilities/statistics.py:compute_gmm_moment_covariances", "pyblp/utilities/statistics.py:compute_gmm_parameter_covariances", "pyblp/utilities/statistics.py:compute_gmm_weights"]}
{"id": "C98", "title": "Reported sensitivity of estimates to moments", "statement": "The reported sensitivity matrix tells how estimates respond to moments: if averaged moments change, the change in parameters that it gives minimises the objective, with the weighting matrix that results report and moments linearized with the reported Jacobian.", "quantifier": "all problems, weighting matrices, covariance types and steps", "why_tests_cant": "an optimality property for every change in moments", "anchors": ["pyblp/results/problem_results.py:ProblemResults", "pyblp/utilities/statistics.py:compute_gmm_parameter_sensitivity"]}
{"id": "C99", "title": "Standard errors are those of the estimates", "statement": "Squared standard errors are variances, divided by the number of observations, of what estimates with the reported weighting matrix make of moments with the reported covariances. With the inverse of covariances of moments as a weighting matrix, they are smaller than with any other one.", "quantifier": "all problems, weighting matrices, covariance types, Jacobians and covariances of moments", "why_tests_cant": "a matrix inequality over all weighting matrices", "anchors": ["pyblp/results/problem_results.py:ProblemResults", "pyblp/utilities/statistics.py:compute_gmm_parameter_covariances"]}
{"id": "C100", "title": "A formula's columns, their values after a change, and their derivatives agree", "statement": "For every formula (numeric expressions, categorical variables and interactions) and all data, the expression that is kept for a column of X1, X2 or X3 evaluates to that column; after a variable such as prices changes, it evaluates to the column that the formula would have given with the changed data; its derivatives are the derivatives of that column; and mean utilities change by the change of X1 times beta. True when a term with more than one categorical factor comes with its lower-order terms (or has two of them and comes with none) and no categorical variable is in another factor of its term. False otherwise: in 1 + prices + prices:C(region):C(year) with numeric categories, the derivative with respect to prices that elasticities and markups use is multiplied by the number of the region.", "quantifier": "all formulas as lists of terms, all data and levels, all changed variables and values, all orders of derivatives, all histories of cached derivatives", "why_tests_cant": "Formulas and data are unbounded, and which columns Patsy codes depends on all the terms of a formula", "anchors": ["pyblp/configurations/formulation.py:Formulation._build_matrix", "pyblp/configurations/formulation.py:ColumnFormulation", "pyblp/configurations/formulation.py:CategoricalTreatment", "pyblp/markets/market.py:Market.update_delta_with_variable"]}
{"id": "C101", "title": "Data are accepted if and only if they are valid", "statement": "Problem accepts product data if and only if shares are finite, strictly between zero and one and sum to less than one in each market, clusters (if any) have at least two distinct IDs, ownership (if any) has as many columns as the largest market has products, firm IDs are there when supply is, and lags (if any) are rows of the data, some of them initial and the others distinct. Demographics that it accepts are finite when they are the same for all products, and when they are specific to products those of product j are columns with index j. True of all but lags and missing demographics. False for lags, because a lag after the last row is not noticed, and for demographics, because a missing value of an ordinary demographic makes it be accepted as specific to products.", "quantifier": "all product data and agent data of any size, all orders in which IDs are sorted, all agent formulations", "why_tests_cant": "Every combination of fields and values must be accepted or rejected; tests only try some invalid ones", "anchors": ["pyblp/primitives.py:Products.__new__", "pyblp/primitives.py:Agents.__new__", "pyblp/primitives.py:build_demographics", "pyblp/configurations/formulation.py:Formulation._build_matrix"]}
{"id": "C102", "title": "Instruments are the excluded ones and the exogenous characteristics", "statement": "Instruments of a problem are the excluded instruments in product data and the columns of X1 without prices (or of X3 without shares), so they do not change when only prices and shares do. Instruments of a problem that is created again by to_problem of optimal instrument results are the optimal instruments of parameters that are not on exogenous linear characteristics, columns in terms of prices (or shares) with concentrated-out parameters at expected prices (or shares), shifters, and the exogenous characteristics, so they do not depend on observed prices and shares either, and there are at least as many as parameters. False on the supply side when costs depend on market shares: all of X3 is added, so observed market shares are an instrument.", "quantifier": "all formulas for X1 and X3, all product data and changes of prices and shares, all sets of estimated, fixed and concentrated-out parameters, all indices to drop", "why_tests_cant": "Formulas and parameters are unbounded, and an endogenous instrument gives plausible but inconsistent estimates", "anchors": ["pyblp/primitives.py:Products.__new__", "pyblp/economies/problem.py:Problem.__init__", "pyblp/economies/problem.py:OptimalInstrumentProblem.__init__", "pyblp/results/optimal_instrument_results.py:OptimalInstrumentResults.to_problem"]}
{"id": "C103", "title": "Simulated data: what is given is used, what is missing is drawn, and agents are of their markets", "statement": "Simulation has each product variable once: IDs, shares, prices, and all variables in formulations. Variables that are given are used as they are, and all others are draws, no two of them the same draw. The order in which sets are iterated over, which differs between processes, does not matter, so that a seed always gives the same data. Each agent has the demographics that agent data have for its market. True of product data, of agents without an integration configuration, and of agents with one if agent data are sorted and have exactly one row per node. False for other agent data with an integration configuration, because market IDs of agent data are ignored.", "quantifier": "all formulations, all given data, all generators and seeds, all orders of sets, all agent data", "why_tests_cant": "Iteration orders of sets depend on hashes of a process and combinations of given and missing variables are unbounded; tests always pass sorted agent data", "anchors": ["pyblp/economies/simulation.py:Simulation.__init__", "pyblp/primitives.py:Agents.__new__"]}
{"id": "C104", "title": "Labels and printed tables line up with parameters", "statement": "In printed results, each estimate is below the label of its column and next to that of its row, with its standard error below it if and only if it is estimated (by optimization or because it is concentrated out), and nothing if it is fixed. The labels of theta are in the order of theta and name its elements. Each printed line of a table has the same length, and each cell is centered below its header.", "quantifier": "all configurations of parameters that are accepted (dimensions, starting values, bounds), all labels, values and standard errors, and all headers and rows of text", "why_tests_cant": "Which standard errors are shown depends on the combination of fixed, estimated and concentrated out elements of all matrices; tests only check that results can be printed.", "anchors": ["pyblp/parameters.py:Parameters.format_estimates", "pyblp/parameters.py:Parameters.format_vector", "pyblp/parameters.py:Parameters.format_nonlinear_coefficients", "pyblp/parameters.py:Parameters.compress_labels", "pyblp/utilities/basics.py:format_table", "pyblp/results/problem_results.py:ProblemResults.theta_labels"]}
{"id": "C105", "title": "Checks of matrices find what they are meant to find", "statement": "A warning about collinearity of characteristics or instruments is displayed if and only if some column is closer to the span of columns before it than its tolerance, in particular if columns are linearly dependent, and it names columns correctly. Weighting matrices and covariance matrices are accepted if and only if they are positive semidefinite, up to tolerances. Autoregressive parameters are accepted if and only if they are stable, up to tolerances. Setting documented options disables each check, and failures of decompositions are reported. False in two ways: setting one of the two collinearity tolerances to zero disables the check, and a unit root is accepted as stable.", "quantifier": "all matrices of all sizes, all tolerances, and all QR, singular value and eigenvalue decompositions that a library may compute", "why_tests_cant": "Decompositions are not unique and matrices are arbitrary; tests only check that a few collinear columns give a warning.", "anchors": ["pyblp/utilities/algebra.py:precisely_identify_collinearity", "pyblp/utilities/algebra.py:precisely_identify_psd", "pyblp/utilities/algebra.py:precisely_identify_stable", "pyblp/economies/economy.py:Economy._detect_collinearity", "pyblp/economies/economy.py:Economy._require_psd", "pyblp/economies/economy.py:Economy._require_stable"]}
{"id": "C106", "title": "Bootstrapped draws are equilibria of the model", "statement": "For each draw and each product, the bootstrapped mean utility is what the model implies at the drawn parameters and the bootstrapped price, holding fixed what estimates leave unexplained; the bootstrapped share is the market share at drawn parameters and bootstrapped prices of the product's own market; without a supply side prices are observed ones; with one, prices from a converged iteration satisfy first order conditions at the marginal costs implied by drawn parameters. Post-estimation methods of bootstrapped results start from these: they compute the same shares and, if ownership is symmetric, these marginal costs. A draw at the estimates reproduces the data.", "quantifier": "all estimates, draws, markets of any sizes, formulations in which prices or shares enter in any way, linear or log-linear costs, constant or changing costs, and all orders in which work for draws and markets is finished", "why_tests_cant": "Bootstrapped results are only compared with estimates loosely, since draws are random; consistency of every draw has to hold for all parameters and formulations.", "anchors": ["pyblp/results/problem_results.py:ProblemResults.bootstrap", "pyblp/markets/economy_results_market.py:EconomyResultsMarket.safely_solve_equilibrium_realization", "pyblp/results/bootstrapped_results.py:BootstrappedResults._combine_arrays", "pyblp/markets/market.py:Market.__init__", "pyblp/markets/market.py:Market.update_delta_with_variable"]}
{"id": "C107", "title": "Post-estimation methods for one market, for all markets and for draws agree", "statement": "A post-estimation method that is given a market ID accepts it if and only if some product has it, and then requires arguments (costs, prices, shares, mean utilities, ownership, stacked matrices) to have one row for each product of the market; without one it requires one row for each product. With rows of arguments that belong to a market, what it returns for this market are the rows of this market of what it returns for all markets, and columns beyond the market's own are not numbers. Bootstrapped results return for each draw what results with the draw's estimates and data return, and reuse arguments that are not specific to draws. Diagonals and means of diagonals that are extracted from stacked matrices are those of each market's own matrix.", "quantifier": "all product data with any number of markets of any sizes in any order of rows, all market IDs, arguments and numbers of draws, all methods of markets, and all orders in which work for markets is finished", "why_tests_cant": "Tests compare a few methods for the last market of a few simulations; alignment has to hold for all layouts of product data, arguments, and schedules.", "anchors": ["pyblp/results/economy_results.py:EconomyResults._combine_arrays", "pyblp/results/economy_results.py:SimpleEconomyResults._select_market_ids", "pyblp/results/economy_results.py:SimpleEconomyResults._coerce_matrices", "pyblp/results/economy_results.py:SimpleEconomyResults.extract_diagonals", "pyblp/results/bootstrapped_results.py:BootstrappedResults._combine_arrays", "pyblp/economies/economy.py:Economy._coerce_optional_firm_ids"]}
{"id": "C108", "title": "Counterfactuals change only what is asked for", "statement": "Shares and probabilities at given prices are those of the model with prices replaced and everything else (unobserved characteristics included) unchanged; given mean utilities are used as they are; two changes of prices in a row are the last one. Arguments that equal the data change nothing, in every method. In a merger simulation, marginal costs are the only ones that rationalize prices in the data for firms before the merger, and prices are a fixed point of the iteration if and only if every price is optimal for the firm that owns the product after it; renaming firms leaves prices unchanged. Profits of a firm's products sum to the firm's profit and are markups times prices times shares.", "quantifier": "all markets, nested or not, with any formulations of demand and costs, prices, mean utilities, costs, firm IDs before and after, and iteration configurations", "why_tests_cant": "Tests compare a few counterfactuals of a few simulations with each other; equilibrium after any change of ownership is a statement about derivatives at all prices and for all formulations.", "anchors": ["pyblp/markets/economy_results_market.py:EconomyResultsMarket.safely_compute_probabilities", "pyblp/markets/economy_results_market.py:EconomyResultsMarket.safely_compute_shares", "pyblp/markets/economy_results_market.py:EconomyResultsMarket.safely_compute_prices", "pyblp/markets/economy_results_market.py:EconomyResultsMarket.safely_compute_markups", "pyblp/markets/economy_results_market.py:EconomyResultsMarket.safely_compute_profits", "pyblp/markets/market.py:Market.get_ownership_matrix", "pyblp/markets/market.py:Market.update_delta_with_variable"]}
{"id": "C109", "title": "Optimizers and root finders see the model, and their reports are what happened", "statement": "Whatever an optimizer or root finder asks, in whatever order, it is answered with the objective, gradient, residual and Jacobian of the model at the point it asks about, and results are what it would return if it worked with them directly. The number of evaluations reported is how often the model was evaluated, each evaluation being told its number and the iterations completed so far; iterations reported are those completed. Bounds are given to an optimizer if and only if it supports them. A root finder is reported to have converged if and only if it says so and no value, weight or Jacobian on the way was not finite; finite roots of its function are exactly fixed points. Knitro's return code decides whether it converged.", "quantifier": "all optimizers and root finders (as programs that ask adaptively, finitely often), starting values, bounds, objectives and contractions, weights and Jacobians, values that are not finite", "why_tests_cant": "Tests run a few routines of one version of SciPy on a few problems; which points a routine asks about, in which order and how often, is up to the routine.", "anchors": ["pyblp/configurations/optimization.py:Optimization._optimize", "pyblp/configurations/optimization.py:scipy_optimizer", "pyblp/configurations/optimization.py:knitro_optimizer_kn", "pyblp/configurations/optimization.py:knitro_optimizer_ktr", "pyblp/configurations/iteration.py:Iteration._iterate", "pyblp/configurations/iteration.py:scipy_iterator"]}
{"id": "C110", "title": "Configurations are accepted if and only if they are valid, and options given are used", "statement": "Iteration, Optimization and Integration accept their arguments if and only if they are valid: known methods, derivatives only where they can be used and wherever they have to be, options in range. Options that are given are used, and others are the documented defaults. Parameters can be bounded exactly with methods that support bounds. Types of random coefficients, the scale of epsilon and types of fixed points are accepted if and only if they fit the formulation and each other.", "quantifier": "all methods, options (numbers including NaN and infinities, functions, other objects), flags, dimensions", "why_tests_cant": "Tests try a few invalid options; that nothing invalid is accepted and nothing valid rejected ranges over all objects.", "anchors": ["pyblp/configurations/iteration.py:Iteration.__init__", "pyblp/configurations/optimization.py:Optimization.__init__", "pyblp/configurations/integration.py:Integration.__init__", "pyblp/economies/economy.py:Economy.__init__", "pyblp/economies/economy.py:Economy._validate_fp_type"]}
{"id": "C111", "title": "Formulations and absorbed fixed effects mean what is written", "statement": "A formulation is accepted if and only if it has a term, at most one constant, and no constant is absorbed; with fixed effects to absorb, the intercept is dropped. Absorbed terms are accepted if and only if all their variables are in the data and all their factors are categorical: marked as such or not numbers. Each term then gives one fixed effect for each combination of values of its variables: two rows share it if and only if they agree on all of them, in whatever order factors are written or iterated. Absorbing one term hence subtracts from each value the mean among rows that agree on its variables.", "quantifier": "all parsed formulas, data, numbers of rows, orders of factors", "why_tests_cant": "Tests absorb a few interactions of two IDs; orders of factors come from iterating a set, and columns, terms and values are unbounded.", "anchors": ["pyblp/configurations/formulation.py:Formulation.__init__", "pyblp/configurations/formulation.py:Formulation._build_ids", "pyblp/utilities/basics.py:interact_ids"]}
{"id": "C112", "title": "Markets use the nodes, demographics and nesting parameters that belong to them", "statement": "For all parameters that are accepted and all parameter values an optimizer tries, agent-specific utilities are product characteristics times random coefficients, which are linear, exponential or logistic in the contributions of integration nodes and demographics. Each column of sigma that is not fixed at zero has its own column of nodes; if columns of sigma are fixed at zero, only the first few columns of nodes are used, as documented. Demographics may be product-specific. Each product has the nesting parameter of its own group, whichever groups are in its market. Nodes in micro data are either enough or rejected.", "quantifier": "all accepted parameters, values of theta, numbers of columns of sigma and nodes, agents, products, demographics, IDs of groups", "why_tests_cant": "Tests use a few patterns of zeros in sigma; patterns, dimensions and values are unbounded, and values change with every evaluation.", "anchors": ["pyblp/markets/market.py:Market.__init__", "pyblp/markets/market.py:Market.compute_random_coefficients", "pyblp/markets/market.py:Market.compute_single_random_coefficient", "pyblp/markets/market.py:Market.compute_mu", "pyblp/parameters.py:Parameters.__init__", "pyblp/primitives.py:MicroAgents.__new__"]}
{"id": "C113", "title": "Importance sampling results and problems re-created from them", "statement": "If importance_sampling returns, sampled agents are candidate agents in their order, with nothing but weights changed; there are exactly draws of them in every market, with positive weights; weights of candidate agents, missing ones included, do not matter; and in the re-created problem, which is otherwise the same, predicted inside shares at the mean utilities that were used are the observed ones. Diagnostics are for the markets of products in order and are the documented functions of weights in each market; numbers of effective draws, also for variance and skewness, are between one and draws. Arguments are rejected if and only if they are invalid, and otherwise the only failure is that too few agents are accepted.", "quantifier": "all candidate agents, markets, probabilities, shares, seeds, generators, numbers of draws, constants, orders in which markets finish, sorting algorithms", "why_tests_cant": "Tests use one seed and one dataset; agents, draws and schedules are unbounded.", "anchors": ["pyblp/results/problem_results.py:ProblemResults.importance_sampling", "pyblp/results/problem_results.py:ProblemResults._compute_importance_weights", "pyblp/results/importance_sampling_results.py:ImportanceSamplingResults", "pyblp/economies/problem.py:ImportanceSamplingProblem"]}
{"id": "C114", "title": "Nothing depends on the order of rows, the names of groups or how an agent is split", "statement": "The order of rows of the product data, the names of nesting groups and the way agents are written down carry no information. If rows are given in another order, in which products of a market come in another order and markets may be interleaved in any other way, then choice probabilities, market shares, mean utilities, derivatives of shares, markups, marginal costs and equilibrium prices are the same ones, each in the row of its product, and linear parameters, averaged moments, the objective, its gradient and covariances of moments of each type (clustered ones included) are unchanged. This is true of what an iteration routine returns after any number of evaluations, the number of evaluations and reported convergence, not only of limits. Neither does anything change if nesting groups get other names, if an agent is replaced by several identical agents with the same total weight, or if an agent of weight zero is left out.", "quantifier": "all markets, reorderings, renamings and splits of agents, options of probabilities, fixed point types, routines written in pyblp with any limits, ownership matrices, costs that depend on shares, data with any number of markets and any interleaving, and schedules of processes", "why_tests_cant": "a test compares a few shuffles of one dataset; the claim is for every permutation of every dataset and every split of agents", "anchors": ["pyblp/markets/market.py:Market.compute_probabilities", "pyblp/markets/market.py:Market.compute_delta", "pyblp/markets/market.py:Market.compute_eta", "pyblp/markets/market.py:Market.compute_equilibrium_prices", "pyblp/configurations/iteration.py:simple_iterator", "pyblp/configurations/iteration.py:squarem_iterator", "pyblp/configurations/iteration.py:infinity_norm", "pyblp/utilities/statistics.py:IV", "pyblp/utilities/statistics.py:compute_gmm_moments_mean", "pyblp/utilities/statistics.py:compute_gmm_moment_covariances", "pyblp/utilities/basics.py:get_indices", "pyblp/utilities/basics.py:generate_items"]}
{"id": "C115", "title": "Results do not depend on the currency of prices", "statement": "If prices and marginal costs are given in other units, say cents instead of dollars, and price coefficients are those of the same preferences, then choice probabilities, shares, price elasticities, diversion ratios, the aggregate elasticity, markups as shares of prices and passthrough are unchanged; derivatives of shares with respect to prices are per unit; markups, marginal costs, consumer surplus and approximate and exact equilibrium prices are the same amounts in the new units. For equilibrium prices this is true of what simple iteration and SQUAREM return, of the number of evaluations and of reported convergence, for any tolerances, so an equilibrium does not become harder or easier to find in another currency.", "quantifier": "all markets, with or without nests, agents, formulas of X1 and X2 that contain prices in any way (for demand: formulas that are the same preferences for a set of prices, such as logs for positive prices), positive exchange rates, ownership matrices, costs that may depend on shares, starting prices, limits", "why_tests_cant": "tests compare a few exchange rates for one dataset; the claim is about all formulas, exchange rates and iterations", "anchors": ["pyblp/markets/market.py:Market.compute_equilibrium_prices", "pyblp/markets/market.py:Market.compute_eta", "pyblp/markets/market.py:Market.compute_capital_lamda_gamma", "pyblp/markets/market.py:Market.compute_utility_derivatives", "pyblp/markets/economy_results_market.py:EconomyResultsMarket.safely_compute_elasticities", "pyblp/markets/economy_results_market.py:EconomyResultsMarket.safely_compute_diversion_ratios", "pyblp/markets/economy_results_market.py:EconomyResultsMarket.safely_compute_consumer_surplus", "pyblp/markets/economy_results_market.py:EconomyResultsMarket.safely_compute_passthrough", "pyblp/markets/economy_results_market.py:EconomyResultsMarket.safely_compute_costs", "pyblp/configurations/iteration.py:simple_iterator", "pyblp/configurations/iteration.py:squarem_iterator"]}
{"id": "C116", "title": "Estimates do not depend on units or the choice of basis of characteristics", "statement": "If characteristics in X1 and X3 whose parameters are concentrated out are replaced by invertible combinations of them (other units, another order, dummies relative to another category), then every step of Problem.solve gives the same estimates of nonlinear parameters, delta, weighting matrix, objective, gradient, structural errors, counts and convergence, whatever the optimizer does with values it is given; linear parameters, their covariances, sensitivities and the Jacobian of moments are those of the other problem in the other basis; in other units, linear parameters and their standard errors are per unit, and standard errors of nonlinear parameters are the same. This is also true when exogenous characteristics are, as by default, instruments as well, so that instruments and default weighting matrices change. For characteristics in X2 and demographics in other units, the same is true market by market: with parameters per unit, coefficients, utilities, probabilities and shares are the same, and derivatives with respect to parameters are per unit.", "quantifier": "all problems with or without a supply side, moment types including innovations, covariance and micro moments, resampled agents, covariance types, GMM methods, optimizers, starting values, invertible combinations", "why_tests_cant": "tests compare estimates for one dataset and a few rescalings up to tolerances of an optimizer", "anchors": ["pyblp/economies/problem.py:ProblemEconomy.solve", "pyblp/economies/problem.py:ProblemEconomy._compute_progress", "pyblp/utilities/statistics.py:IV", "pyblp/utilities/statistics.py:compute_gmm_parameter_covariances", "pyblp/utilities/statistics.py:compute_gmm_parameter_sensitivity", "pyblp/results/problem_results.py:ProblemResults._compute_mean_G", "pyblp/results/problem_results.py:ProblemResults._compute_S", "pyblp/markets/market.py:Market.compute_mu", "pyblp/markets/market.py:Market.compute_random_coefficients", "pyblp/markets/market.py:Market.compute_probabilities_by_parameter_tangent", "pyblp/markets/market.py:Market.compute_xi_by_theta_jacobian"]}
{"id": "C117", "title": "Mean utilities that explain shares exist, and the inner loop finds them from anywhere", "statement": "In a market in which everybody is offered everything, there are mean utilities that explain given shares if and only if all shares are positive and sum to less than the total weight of agents (one, usually). If epsilon_scale is not below one and shares are strictly within shares_bounds, iterating over the contraction used by Problem.solve converges to them from whatever starting values; so the inner loop with simple iteration, a positive absolute tolerance and enough evaluations reports convergence. Mean utilities whose shares are close are close: differences are bounded by differences of log shares over the smallest probability of the outside option. So for every accuracy there is a tolerance such that whenever simple or SQUAREM iteration reports convergence, what it returns is that close to the solution, for all starting values, budgets and step lengths. With epsilon_scale below one iteration can cycle forever.", "quantifier": "all markets, random coefficients, nesting parameters in [0, 1), agent weights, positive shares, bounds, starting values, tolerances", "why_tests_cant": "tests iterate from a few starting values on simulated data, in which a solution is known to exist", "anchors": ["pyblp/markets/market.py:Market.compute_delta", "pyblp/configurations/iteration.py:simple_iterator", "pyblp/configurations/iteration.py:squarem_iterator", "pyblp/markets/market.py:Market.compute_probabilities"]}
{"id": "C118", "title": "The objective is a function of parameters, and the gradient that is computed market by market is its derivative", "statement": "Given product and agent data with positive shares that leave something to the outside option, for all parameters with nesting parameters in [0, 1) there is exactly one vector of mean utilities over all markets that explains shares, so that the objective that Problem.solve minimizes is a function of theta only. Without covariance moments, and if no weight is on products of aggregate and micro moments, its derivative with respect to each element of theta (in sigma, pi, rho, beta, gamma or phi) is the element of the gradient that is assembled from Jacobians that markets report, with linear parameters concentrated out, with and without a supply side with linear or log-linear costs inside of their bounds, and with any micro moments (differentiable functions of averages over agents of all markets) in datasets without eliminated product IDs. So at every local minimum the gradient that is computed is zero.", "quantifier": "all numbers of markets, products and agents, data, parameters, kinds of random coefficients, nesting structures, moment types, weighting matrices", "why_tests_cant": "tests compare gradients with finite differences at a few parameter values in simulated problems", "anchors": ["pyblp/economies/problem.py:ProblemEconomy._compute_progress", "pyblp/markets/problem_market.py:ProblemMarket.solve", "pyblp/parameters.py:Parameters.expand", "pyblp/markets/market.py:Market.compute_micro_contributions"]}
{"id": "C119", "title": "Absorbing fixed effects does not break the gradient or standard errors", "statement": "For all combinations of moment types and absorbed fixed effects that Problem.solve accepts, the gradient of the objective and the Jacobian of moments from which standard errors are computed are derivatives of what is computed with absorbed fixed effects, although Jacobians of mean utilities and costs are not residualized unless there are covariance moments. solve accepts exactly those moment types of a side that are distinct, whose numbers of instruments sum to the number that there are, and that are only levels if fixed effects are absorbed on this side or there are covariance moments.", "quantifier": "all data, fixed effects of demand and supply, moment types, weighting matrices, parameters", "why_tests_cant": "tests absorb fixed effects in a few simulated problems, mostly with moments in levels", "anchors": ["pyblp/economies/problem.py:ProblemEconomy.solve", "pyblp/economies/problem.py:ProblemEconomy._compute_progress", "pyblp/economies/problem.py:Problem.__init__", "pyblp/results/problem_results.py:ProblemResults._compute_mean_G"]}
{"id": "C120", "title": "Simulated structural errors have the covariances that were asked for and are stationary", "statement": "Simulation uses structural errors that are passed as they are, and simulates them only if neither is passed and the supply side is formulated. Without lags, simulated errors have mean zero, the variances and correlation that were asked for, and are not correlated between rows. With lags, simulation succeeds if and only if the covariance matrix of innovations is not singular and all eigenvalues of the autoregressive coefficients are inside the unit circle. Then errors of every row have the same covariance matrix, which is the unique stationary one, covariances with lags are powers of the coefficients times it, different products are not correlated, and innovations at the true coefficients have the variances and correlation asked for and are not correlated with earlier errors.", "quantifier": "all numbers of products, lags that lead to initial periods, variances, correlations, coefficients, tolerances of checks, and all distributions of uncorrelated standard draws", "why_tests_cant": "covariances are about the distribution of draws, of which tests see one, and eigenvalues near the unit circle are not simulated", "anchors": ["pyblp/economies/simulation.py:Simulation.__init__", "pyblp/economies/economy.py:Economy._require_psd", "pyblp/economies/economy.py:Economy._require_stable"]}
{"id": "C121", "title": "The tolerance of the inner loop controls the error of the objective and of the gradient", "statement": "Whatever accuracy is wanted, there is a tolerance such that whenever iterations over the contraction with this or a smaller absolute tolerance report in all markets that they converged, reported mean utilities are that close to those that explain shares exactly, the objective that is computed from reported mean utilities is that close to the objective at exact ones, all matrices that have to be inverted have inverses, and each element of the gradient that is computed is that close to the derivative of the exact objective. In particular, at a minimum of the exact objective the computed gradient is as small as one likes. Whatever the tolerance, simple iteration reports that it converged if it is allowed enough evaluations.", "quantifier": "all numbers and sizes of markets, data that can be explained, parameters of all kinds with and without nesting, with and without a supply side, both iteration routines, starting values, limits on evaluations, moment types and accuracies", "why_tests_cant": "tests compare values at a few tolerances with loose thresholds; that errors vanish with the tolerance is a statement about all tolerances and all convergence histories", "anchors": ["pyblp/configurations/iteration.py:simple_iterator", "pyblp/configurations/iteration.py:squarem_iterator", "pyblp/markets/market.py:Market.compute_delta", "pyblp/economies/problem.py:ProblemEconomy._compute_progress", "pyblp/markets/problem_market.py:ProblemMarket.solve"]}
{"id": "C122", "title": "Floating point problems in choice probabilities are noticed, and overflow protection prevents them", "statement": "In floating point arithmetic, if mean utilities and taste terms are numbers, then either a floating point problem is noticed (and becomes an error in the results) or all choice probabilities are numbers. A product whose utility is NaN or positive infinity either makes all of the agent's probabilities NaN or is noticed. With overflow protection (`safe_linear`, the default) and utilities that are numbers, even enormous ones, nothing is noticed and each result is a number from zero to one. If nothing is noticed and arithmetic is otherwise exact, results are choice probabilities of the (nested) logit model.", "quantifier": "all formats of numbers that round monotonically, all utilities including NaN and infinities, numbers of products and nests, nesting parameters, availability, eliminated products, and with and without overflow protection", "why_tests_cant": "tests have utilities of moderate size; overflow, infinities, NaN and underflow arise for a few agents at parameters that optimization routines try", "anchors": ["pyblp/markets/market.py:Market.compute_probabilities", "pyblp/utilities/basics.py:NumericalErrorHandler"]}
{"id": "C123", "title": "What solve accepts, and that placeholders do not leak into results", "statement": "Problem.solve starts exactly if each of its options is valid, and then with what was asked for: bounds in which None and NaN mean no bound, moment types that add up, square positive semidefinite matrices of the right size, a delta with one element per product, an initial update exactly when asked for or when there are micro moments and no weighting matrix, and warnings about singular matrices and too few moments exactly when they apply. Weights on micro moments in the initial weighting matrix do not affect any results after an initial update. If the first objective evaluation has no errors, nothing that is reported depends on placeholders for costs, micro moments, Jacobians, gradient and objective. If it does have errors, then with 'revert' what is not finite is replaced with prices or their logarithms, zeros and ten billion times the punishment, where logarithms need positive prices.", "quantifier": "all combinations of arguments, problems with any numbers of instruments and moments, weighting matrices, optimizers, and histories of objective evaluations of any length with any errors", "why_tests_cant": "There are too many combinations of options to try, and a placeholder that leaks into results through a later reversion only shows for particular histories of errors.", "anchors": ["pyblp/economies/problem.py:ProblemEconomy.solve", "pyblp/economies/economy.py:Economy._coerce_optional_bounds", "pyblp/economies/economy.py:Economy._detect_singularity", "pyblp/economies/problem.py:InitialProgress"]}
{"id": "C124", "title": "Results of a market belong together, and errors name what failed", "statement": "In each market, everything that Problem.solve computes after the contraction (probabilities, Jacobians, micro moments, costs) is computed at the mean utilities that are reported: those of the contraction, or last ones where these are not finite. Values of functions elsewhere, of computations that were not asked for, or where numbers are not finite, do not matter. Marginal costs are prices minus markups, clipped into their bounds and then transformed; clipped costs are flagged and have zero derivatives, and other derivatives are those at reported costs. There is an error about convergence exactly if the contraction did not converge, an error about the contraction, each Jacobian, micro moments or costs exactly if it was computed and had floating point problems, an error about nonpositive costs exactly if logs were taken of one, and a generic one exactly if there were problems with probabilities or their tangents. Before NumPy 2.0 there is never a generic one.", "quantifier": "all markets of any size, results of contractions and other computations with any nonfinite values and problems, combinations of options, bounds and last values", "why_tests_cant": "Contractions that fail for some products only, infinite values, and problems in one of many computations are hard to cause on purpose, and there are many combinations.", "anchors": ["pyblp/markets/problem_market.py:ProblemMarket.solve", "pyblp/markets/problem_market.py:ProblemMarket.safely_compute_delta", "pyblp/markets/problem_market.py:ProblemMarket.safely_compute_tilde_costs", "pyblp/utilities/basics.py:NumericalErrorHandler"]}
{"id": "C125", "title": "With plain logit demand, merger simulations have one answer and iteration finds it", "statement": "With plain logit demand, constant marginal costs and ownership by firms, there is exactly one set of equilibrium prices: those at which every product of a firm has the same markup, one over price sensitivity times one minus the share of the firm, and, equivalently, those at which no firm can gain by changing any of its prices in any way. compute_prices converges to them from any initial prices, and reports convergence if it may evaluate often enough. Costs recovered by compute_costs are the only ones for which observed prices are an equilibrium. If firms merge, all prices rise, each firm earns more than its products did before, consumer surplus falls, more consumers choose the outside good, and firms that did not merge sell more. Started from prices before the merger, iteration only ever raises them and never overshoots. compute_approximate_prices leaves prices of firms that did not merge unchanged, which is too low, and for the firm that results from a merger gives prices that are too high.", "quantifier": "all markets with plain logit demand, of any size, all utilities, price coefficients, costs, firms, mergers and initial prices", "why_tests_cant": "Uniqueness, global deviations, convergence from any initial prices and signs of effects of mergers are statements about infinitely many prices and markets; tests look at a few.", "anchors": ["pyblp/markets/market.py:Market.compute_equilibrium_prices", "pyblp/markets/market.py:Market.compute_eta", "pyblp/results/economy_results.py:SimpleEconomyResults.compute_prices", "pyblp/markets/economy_results_market.py:EconomyResultsMarket.safely_compute_prices", "pyblp/markets/economy_results_market.py:EconomyResultsMarket.safely_compute_approximate_equilibrium_prices", "pyblp/markets/economy_results_market.py:EconomyResultsMarket.safely_compute_consumer_surplus"]}
{"id": "C126", "title": "Special cases agree with textbook formulas", "statement": "With plain logit demand and a utility that is linear in prices, demand Jacobians, price elasticities, diversion ratios and consumer surplus are the textbook ones: derivatives are minus sensitivity times share times one minus share (own price) and sensitivity times the product of shares (other prices), elasticities with respect to another price are the same for all products, consumers divert in proportion to shares, long-run diversion ratios are the same as those for small price changes, consumer surplus is minus the log of the outside share over sensitivity, and a monopolist with one product passes on one minus its share. With nests, demand Jacobians and consumer surplus are those of the nested logit model. Nests of one product each give the model without nests, and without random coefficients the number and weights of agents do not matter.", "quantifier": "all markets, of any size, prices, utilities, price coefficients, nests, nesting parameters below one and numbers of agents whose weights sum to one", "why_tests_cant": "Formulas are equalities of functions of prices, shares and parameters; tests compare numbers for a few of them.", "anchors": ["pyblp/results/economy_results.py:SimpleEconomyResults.compute_demand_jacobians", "pyblp/results/economy_results.py:SimpleEconomyResults.compute_elasticities", "pyblp/results/economy_results.py:SimpleEconomyResults.compute_diversion_ratios", "pyblp/results/economy_results.py:SimpleEconomyResults.compute_long_run_diversion_ratios", "pyblp/results/economy_results.py:SimpleEconomyResults.compute_consumer_surpluses", "pyblp/results/economy_results.py:SimpleEconomyResults.compute_passthrough", "pyblp/markets/market.py:Market.compute_probabilities"]}
{"id": "C127", "title": "Monte Carlo integration is unbiased, and shares and mean utilities converge to those of the population", "statement": "If numbers of the random number generator are independent and standard normal, then market shares that are computed with nodes and weights built by Integration('monte_carlo', size) have the integral over the population as their mean, whatever the size. The probability that a share is off by e or more is at most 1 / (4 size e^2). As the size grows, with probability one, shares of all markets converge to those of the population at all mean utilities; the mean utilities that the inner loop solves for, which exist and are unique, converge to the only mean utilities that explain shares in the population; and counterfactual shares converge. Nodes of different markets are independent.", "quantifier": "all numbers of products, markets, nodes, dimensions and characteristics, linear, log and logit random coefficients, nests, parameters, mean utilities and observed shares in the interior, and almost all outcomes of the random number generator", "why_tests_cant": "The claims are about distributions of results over all draws and limits as the number of nodes grows; a test has a few seeds and sizes.", "anchors": ["pyblp/configurations/integration.py:Integration._build_many", "pyblp/configurations/integration.py:monte_carlo", "pyblp/primitives.py:Agents.__new__", "pyblp/markets/market.py:Market.compute_mu", "pyblp/markets/market.py:Market.compute_probabilities", "pyblp/markets/market.py:Market.compute_delta"]}
{"id": "C128", "title": "Demand Jacobians, elasticities and marginal costs converge to those of the population", "statement": "Demand of a population with normal, lognormal and logit random coefficients is differentiable in prices. If nodes and weights are built by Integration('monte_carlo', size) and mean utilities are those that the inner loop solves for, then, with probability one, demand Jacobians with respect to prices and price elasticities converge to derivatives and elasticities of the population's demand as the size grows, in every market. If first-order conditions of firms that face the population's demand can be solved for marginal costs, they have one solution, and marginal costs that are computed converge to it.", "quantifier": "all numbers of products, markets, nodes, dimensions and characteristics, all twice differentiable formulas in prices, random coefficients, nests, parameters, ownership matrices, mean utilities, and almost all outcomes of the random number generator", "why_tests_cant": "The claims are about limits as the number of nodes grows, for almost all draws; a test has a few seeds and sizes.", "anchors": ["pyblp/configurations/integration.py:monte_carlo", "pyblp/results/economy_results.py:SimpleEconomyResults.compute_demand_jacobians", "pyblp/results/economy_results.py:SimpleEconomyResults.compute_elasticities", "pyblp/results/economy_results.py:SimpleEconomyResults.compute_costs", "pyblp/markets/market.py:Market.compute_eta", "pyblp/markets/market.py:Market.compute_utility_derivatives"]}
{"id": "C129", "title": "Estimates of linear parameters are consistent and standard errors are right in large samples", "statement": "Suppose all parameters are linear, as in logit models. If clusters (for example markets) with any numbers of products are independent draws from a population with finite second moments, instruments are valid, and parameters are identified, then estimates reported by Problem.solve converge to true parameters with probability one as the number of clusters grows: for one- and two-step GMM, with or without an initial update, default or other initial weights, and all types of weights. Squared standard errors times the number of products converge to asymptotic variances of estimates with probability one, t-statistics converge in distribution to the standard normal, and intervals of c standard errors around estimates contain true parameters with a probability that converges to that of a normal variable between -c and c: for clustered standard errors always, for robust ones if moments are not correlated within clusters, and for unadjusted ones if errors are also homoskedastic and weights are optimal.", "quantifier": "all populations of clusters, numbers of equations, instruments and parameters, true parameters, methods, types of weights and of standard errors, orders of rows, and almost all samples", "why_tests_cant": "The claims are about limits as the number of clusters grows and about probabilities over samples; a test has a few simulated samples of a few sizes.", "anchors": ["pyblp/economies/problem.py:ProblemEconomy.solve", "pyblp/results/problem_results.py:ProblemResults.__init__", "pyblp/utilities/statistics.py:IV", "pyblp/utilities/statistics.py:compute_gmm_moment_covariances", "pyblp/utilities/statistics.py:compute_gmm_parameter_covariances", "pyblp/utilities/statistics.py:compute_gmm_weights"]}
{"id": "C130", "title": "Test statistics are chi-squared in large samples", "statement": "Suppose all parameters are linear and markets or other clusters are sampled as in C129. If weights are optimal, the probability that the statistic returned by ProblemResults.run_hansen_test exceeds any positive critical value converges to that of a chi-squared variable with degrees of freedom equal to the number of moments minus the number of parameters. If the parameters of another problem are valid restrictions of these, and weights of both problems are optimal, the same is true of run_distance_test, with degrees of freedom equal to the number of restrictions, and the statistic is always defined. If restrictions that hold at true parameters are differentiable with independent derivatives, and standard errors are valid, the same is true of run_wald_test, with degrees of freedom equal to the number of restrictions, and the probability of a warning about inversion converges to zero.", "quantifier": "all populations of clusters, numbers of equations, instruments, parameters and restrictions, true parameters, methods, types of weights and of standard errors, differentiable restrictions, scaled and unscaled objectives, and critical values", "why_tests_cant": "The claims are about limits of probabilities over samples as the number of clusters grows; a test has a few samples.", "anchors": ["pyblp/results/problem_results.py:ProblemResults.run_hansen_test", "pyblp/results/problem_results.py:ProblemResults.run_distance_test", "pyblp/results/problem_results.py:ProblemResults.run_wald_test", "pyblp/economies/problem.py:ProblemEconomy.solve"]}
{"id": "C131", "title": "The Lagrange multiplier statistic of restricted results", "statement": "Documentation of ProblemResults.run_lm_test says that if restrictions of the estimated model are valid and weights are optimal, the statistic is asymptotically chi-squared with degrees of freedom equal to the number of restrictions.", "quantifier": "all restricted problems with linear parameters, populations of clusters, and samples", "why_tests_cant": "The claim is about limits of probabilities over samples. Tests only compare statistics of the same problem with and without absorbed fixed effects, and all of these are near zero.", "anchors": ["pyblp/results/problem_results.py:ProblemResults.run_lm_test"]}
{"id": "C132", "title": "Formulations that problems and simulations accept", "statement": "Problem is created if and only if product_formulations is a Formulation or a sequence of up to three of them or None, the first is given, the second does not absorb fixed effects, all build finite matrices from product data, shares are not in the first two, prices are in one of these and not in the third, no variable has the name of a field of Products, excluded instruments that are needed are finite, and other fields are valid. Its products then have exactly the variables that underlie formulations as additional fields. Arguments of the wrong type raise a TypeError, for problems and for simulations, and others do not. Simulation accepts exactly those formulations that Problem would accept without excluded instruments, if nothing is absorbed, the agent formulation is valid, and there are one-dimensional market and firm IDs.", "quantifier": "all arguments (formulations, sequences of any length and content, other objects), data, and excluded instruments", "why_tests_cant": "There are unboundedly many arguments of the wrong type and combinations of formulations; tests have valid ones.", "anchors": ["pyblp/economies/problem.py:Problem.__init__", "pyblp/economies/simulation.py:Simulation.__init__", "pyblp/primitives.py:Products.__new__"]}
{"id": "C133", "title": "Estimates of nonlinear models are consistent", "statement": "If outcomes (mean utilities and costs) that solve recovers are continuous functions of nonlinear parameters in a compact set, have integrable bounds, and only true parameters satisfy population moment conditions, and if in each step the optimizer finds the smallest value of the objective over the set, then with probability one estimates of nonlinear and of linear parameters that solve reports converge to the truth as the number of independently drawn clusters (markets, for example) grows, for one-step and two-step GMM, default and other initial weights, and all types of weights.", "quantifier": "all populations of clusters with any numbers of products, all models that are continuous in parameters, all compact parameter sets, all true parameters, all initial weighting matrices that are positive definite, both GMM methods and all types of weights", "why_tests_cant": "This is a statement about limits with probability one; tests have single finite samples.", "anchors": ["pyblp/economies/problem.py:ProblemEconomy.solve", "pyblp/economies/problem.py:ProblemEconomy._compute_progress", "pyblp/results/problem_results.py:ProblemResults._compute_S"]}
{"id": "C134", "title": "Standard errors of nonlinear models are valid in large samples", "statement": "If, in addition to what consistency needs, true nonlinear parameters are in the interior of a convex set, outcomes have continuous derivatives with integrable bounds, these are what markets compute, and derivatives of population moments with respect to all parameters are not collinear, then squared standard errors times the number of products converge with probability one to the asymptotic variances of estimates, t-statistics of nonlinear and linear parameters become standard normal, and confidence intervals contain the truth with probabilities that converge to nominal ones. This is so for clustered standard errors, for robust ones if moments are not correlated within clusters, and for unadjusted ones if errors are also homoskedastic and weights are optimal.", "quantifier": "all populations of clusters with any numbers of products, all differentiable models, all compact convex parameter sets, all true parameters in the interior, all positive definite initial weighting matrices, both GMM methods, all types of weights and standard errors, all parameters", "why_tests_cant": "This is a statement about limits of distributions; tests have single finite samples.", "anchors": ["pyblp/economies/problem.py:ProblemEconomy.solve", "pyblp/results/problem_results.py:ProblemResults.__init__", "pyblp/utilities/statistics.py:compute_gmm_parameter_covariances", "pyblp/utilities/statistics.py:compute_gmm_moment_covariances"]}
{"id": "C135", "title": "Tests of nonlinear models have the right size in large samples", "statement": "In models with nonlinear parameters that satisfy what validity of standard errors needs, run_hansen_test with optimal weights exceeds each critical value with a probability that converges to that of a chi-squared variable with as many degrees of freedom as there are more moments than nonlinear and linear parameters; run_wald_test does so for restrictions on nonlinear and linear parameters that are true, with as many degrees of freedom as there are restrictions; and run_distance_test does so for models that are special cases of others.", "quantifier": "all populations of clusters, all differentiable models, all true parameters in the interior of compact convex sets, both GMM methods, all types of weights, all differentiable restrictions and all nested models", "why_tests_cant": "This is a statement about limits of distributions; tests have single finite samples.", "anchors": ["pyblp/results/problem_results.py:ProblemResults.run_hansen_test", "pyblp/results/problem_results.py:ProblemResults.run_wald_test", "pyblp/results/problem_results.py:ProblemResults.run_distance_test"]}
{"id": "C136", "title": "Large-sample theory holds for random coefficients logit demand", "statement": "When demand has random coefficients of any type (normal, lognormal, logistic of linear combinations of nodes and demographics) and parameters are elements of sigma and pi, mean utilities that explain market shares exist, are unique, measurable and continuously differentiable in parameters, with derivatives that are the ones the code computes. So the objective has a minimum over each compact set of parameters, and when it is found in each GMM step, estimates of sigma, pi and beta converge to the truth as the number of markets grows, standard errors and confidence intervals are valid, and Hansen and Wald statistics have their chi-squared limits.", "quantifier": "all populations of markets with any numbers of products and agents, all types of random coefficients, all compact convex sets of parameters with the truth in their interior, both GMM methods, and all types of weights and standard errors", "why_tests_cant": "This is a statement about limits of distributions over all populations; tests have single finite samples of particular ones.", "anchors": ["pyblp/economies/problem.py:ProblemEconomy.solve", "pyblp/economies/problem.py:ProblemEconomy._compute_progress", "pyblp/markets/market.py:Market.compute_delta", "pyblp/markets/market.py:Market.compute_xi_by_theta_jacobian", "pyblp/results/problem_results.py:ProblemResults.run_hansen_test", "pyblp/results/problem_results.py:ProblemResults.run_wald_test"]}
{"id": "C137", "title": "Bootstrapped parameters have the large-sample distribution of estimates", "statement": "The parametric bootstrap draws parameters from the normal distribution with estimates as its mean and reported covariances divided by the number of products as its covariances. So in large samples, with probability one, the distribution of any differentiable function of bootstrapped parameters around that function of estimates is the distribution of the function of estimates around that of the truth, and percentiles of bootstrapped functions of parameters are bounds of confidence intervals with the right coverage: the true value is between the 2.5th and the 97.5th percentiles with a probability that converges to 95 percent.", "quantifier": "all populations and samples for which standard errors are valid in large samples (C134), all differentiable functions of parameters with a nonzero derivative at the truth, all percentages, all bounds with the truth strictly inside, and all square roots of covariances that the random number generator may compute", "why_tests_cant": "It is a statement about limits of distributions for all populations and functions, and simulations of finite samples with finitely many draws only suggest it.", "anchors": ["pyblp/results/problem_results.py:ProblemResults.bootstrap", "pyblp/results/problem_results.py:ProblemResults.__init__", "pyblp/utilities/statistics.py:compute_gmm_parameter_covariances"]}
{"id": "C138", "title": "Percentiles of bootstrapped outputs are confidence intervals for outputs", "statement": "Intervals between percentiles of an output of bootstrapped results, for example the 2.5th and the 97.5th percentiles of bootstrapped elasticities, have the output at the true parameters with a probability that converges to the difference between percentages as the sample grows.", "quantifier": "all populations and samples for which standard errors are valid in large samples, all outputs that are differentiable functions of drawn parameters and estimates, all percentages", "why_tests_cant": "Coverage is a limit of probabilities over samples. Whether it is the right one depends on which parts of results change with draws, which no single bootstrap shows.", "anchors": ["pyblp/results/problem_results.py:ProblemResults.bootstrap", "pyblp/results/bootstrapped_results.py:BootstrappedResults", "pyblp/results/economy_results.py:SimpleEconomyResults.compute_elasticities"]}
{"id": "C139", "title": "Halton nodes are evenly spread in all dimensions at once", "statement": "For each market, however much of the sequence is discarded, however many markets come before, and whether or not digits are scrambled, every box of the unit cube with edges that are intervals of lengths of negative powers of the dimensions' primes has its share of the market's points, up to less than one point. So an average over the market's nodes with integration weights approximates an expected value over independent standard normal variables, with an error that is bounded by the variation of the function within boxes and by the number of boxes relative to the number of nodes.", "quantifier": "all numbers of dimensions for which there are primes, all sizes, starts, numbers of markets, permutations of digits, powers below double precision, and bounded measurable functions", "why_tests_cant": "Even spread is a statement about all boxes, all starts, and all permutations. A test only sees a few nodes, and a wrong base or a repeated one still gives nodes that look random.", "anchors": ["pyblp/configurations/integration.py:halton", "pyblp/configurations/integration.py:Integration._build_many", "pyblp/configurations/integration.py:get_prime"]}
{"id": "C140", "title": "Averages over Latin Hypercube nodes are unbiased", "statement": "With Latin Hypercube Sampling or its modified version, each agent's nodes are distributed as independent standard normal variables, so the expected value of an average over nodes with integration weights is the expected value that it approximates. For functions that are sums of functions of single dimensions, the variance of the average with Latin Hypercube Sampling is at most that of an average over as many Monte Carlo draws.", "quantifier": "all numbers of dimensions and sizes, all integrable functions, for precision all additive functions with finite variance, all random number generators with the documented distributions", "why_tests_cant": "It is a statement about distributions over all seeds. Nodes of one seed can't show bias, and a wrong shuffle, for example one that is shared between dimensions, gives nodes that are right in each dimension.", "anchors": ["pyblp/configurations/integration.py:lhs", "pyblp/configurations/integration.py:Integration._build"]}
{"id": "C141", "title": "Optimal instruments give the smallest variances", "statement": "If structural errors are homoskedastic with the estimated covariances and expected Jacobians are right, then GMM estimates with optimal instruments and with weights that are the inverse of covariances of moments have the smallest large-sample variances: reported parameter covariances with any other instruments and weights exceed them by a positive semidefinite matrix. This is also true if some optimal instruments are replaced by others that span them, as when a problem is created from results, and, without a supply side, whatever the variance of errors. Splitting optimal instruments into separate demand- and supply-side moments loses nothing.", "quantifier": "all numbers of observations, parameters and instruments, all errors and Jacobians with the stated moments given exogenous variables, all alternative instruments, all symmetric weights", "why_tests_cant": "Optimality is a comparison with all other instruments and weights. A Monte Carlo study with a few alternatives can't settle it.", "anchors": ["pyblp/results/problem_results.py:ProblemResults.compute_optimal_instruments", "pyblp/results/optimal_instrument_results.py:OptimalInstrumentResults.to_problem", "pyblp/utilities/statistics.py:compute_gmm_parameter_covariances", "pyblp/utilities/statistics.py:compute_gmm_moments_mean"]}
{"id": "C142", "title": "Importance sampling does not bias integrals", "statement": "If candidate agents are independent draws from a population, then sums over the agents that importance sampling keeps, with the weights that it gives them, have the expected values that they have in the population, multiplied by the ratio of the inside share to the one that is implied by the candidates' probabilities. If mean utilities explain the inside share, there is no bias. The variance is known, does not depend on the accept-reject constant, is at most s (S - s) / draws for a market share s out of an inside share S, and is zero for the inside share. With more candidates than the documented rule of thumb by any fraction, the exception about too few candidates becomes unlikely as more draws are asked for.", "quantifier": "all populations of agents, numbers of candidates and draws, accept-reject constants of at least one, probabilities of choosing an inside good, integrable functions of agents, and random number generators whose choice is independent of candidates and cutoffs", "why_tests_cant": "Bias is about all random draws, and conditioning on there being enough accepted candidates could introduce it. A test sees a few seeds.", "anchors": ["pyblp/results/problem_results.py:ProblemResults.importance_sampling", "pyblp/results/problem_results.py:ProblemResults._compute_importance_weights"]}
{"id": "C143", "title": "Simulated micro data have the moments and covariances that are computed for them", "statement": "If random numbers are independent and uniform, then averages of a part's values over simulated micro data have the computed micro part value as their expectation, for any number of observations. The covariance of the averages for two parts of a dataset is the covariance that is computed for the parts with this number of observations. Averages converge almost surely as the number of observations grows. Micro moments that are differentiable functions of parts are approximately normal around their computed values, with variances that are the computed micro covariances.", "quantifier": "all markets, agents, choice probabilities, survey weights, first and second choices, parts and differentiable functions of parts, numbers of chunks, numbers of observations, and sequences of independent uniform random numbers", "why_tests_cant": "Expectations, covariances and limits are over all random draws and numbers of observations. A test sees a few seeds.", "anchors": ["pyblp/results/economy_results.py:EconomyResults.simulate_micro_data", "pyblp/economies/problem.py:ProblemEconomy._compute_progress"]}
{"id": "C144", "title": "Agent scores average to zero and are the most informative micro moments", "statement": "Scores that compute_agent_scores returns for agent data average to zero over markets, agents and choices of the dataset, where averages use the weights with which micro values are computed. The derivative of the micro value of any values with respect to a parameter, when unobserved product characteristics adjust to keep shares, is the covariance of these values with the parameter's scores. No micro moments of the dataset lead to more precise estimates of parameters than those that match scores, which attain the bound. Averages of scores over simulated micro data have an expectation of zero, covariances that are those of scores divided by the number of observations, and converge to zero. Scores can be computed whenever survey weights are not negative.", "quantifier": "all markets, agents, choice probabilities, survey weights that are computed agent by agent, first and second choices, parameters, any number of micro moments with any values and invertible covariances, all numbers of simulated observations and sequences of uniform random numbers", "why_tests_cant": "Optimality is a comparison with all other micro moments, and derivatives and expectations are limits. A test sees a few moments, finite differences and seeds.", "anchors": ["pyblp/results/economy_results.py:EconomyResults.compute_agent_scores", "pyblp/results/economy_results.py:EconomyResults._compute_scores", "pyblp/results/economy_results.py:EconomyResults.simulate_micro_data"]}
{"id": "C145", "title": "Changes in consumer surplus are areas under demand curves", "statement": "When utility is linear in prices with a negative coefficient for each agent, the consumer surplus that is reported changes with prices by minus demand for each product times the change in its price. Along any smooth path of prices the change in surplus is minus the integral of demand, whatever the path. Surplus and demand with a product eliminated are limits as the price of the product goes to infinity, and what is lost by eliminating a product is the area under its demand curve above its price. A change in prices costs consumers at most what it adds to the bill for what they bought before, and at least what it adds to the bill for what they buy after.", "quantifier": "all markets and agents, nesting parameters from zero to below one, any availability, any set of eliminated products, all prices and paths of prices", "why_tests_cant": "The claims are about derivatives, limits and integrals over all prices. A test compares a few numbers with finite differences or quadrature.", "anchors": ["pyblp/results/economy_results.py:SimpleEconomyResults.compute_consumer_surpluses", "pyblp/markets/economy_results_market.py:EconomyResultsMarket.safely_compute_consumer_surplus", "pyblp/markets/market.py:Market.compute_probabilities"]}
{"id": "C146", "title": "Demand slopes down, products are substitutes and markups are positive", "statement": "When utility of all agents falls in prices, the demand Jacobian has negative own-price derivatives, derivatives with respect to prices of other products that are never negative (and positive if some agent may buy both), and demand for all products together falls in each price. Own elasticities are negative and others are not. Diversion ratios are fractions and some consumers divert to the outside option. Markups can always be computed, whatever the ownership matrix with own weights of one and others between zero and one, they are the only ones that rationalize prices, and they are positive: computed marginal costs are below prices. Computed equilibrium prices are above marginal costs. Markups are higher the more firms care about each other's profits, and approximate prices after a merger are never lower than before, and higher for merging products that are substitutes.", "quantifier": "all markets, prices, agents with any weights, nesting parameters from zero to below one, product availability, utility that is nonlinear in prices, ownership matrices and firm IDs", "why_tests_cant": "Signs are claims about all markets, prices and ownership matrices. A test checks a few estimated models.", "anchors": ["pyblp/markets/market.py:Market.compute_eta", "pyblp/markets/market.py:Market.compute_shares_by_variable_jacobian", "pyblp/markets/market.py:Market.compute_equilibrium_prices", "pyblp/markets/economy_results_market.py:EconomyResultsMarket.safely_compute_costs", "pyblp/markets/economy_results_market.py:EconomyResultsMarket.safely_compute_approximate_equilibrium_prices", "pyblp/markets/economy_results_market.py:EconomyResultsMarket.safely_compute_diversion_ratios", "pyblp/markets/economy_results_market.py:EconomyResultsMarket.safely_compute_elasticities"]}
{"id": "C147", "title": "Optimal instruments average over equilibria of the estimated model", "statement": "Each draw of errors behind optimal instruments gives a realization of the estimated model: mean utilities are those at estimated parameters, drawn unobserved characteristics and the realization's prices, and shares are market shares at these prices. Given expected prices are used as they are. Otherwise, if there is a supply side and the iteration has arrived at a fixed point, prices are optimal for firms at drawn marginal costs. This holds whatever the order in which markets are built and results are written, with any number of processes. Jacobians of a realization are how mean utilities have to change with a parameter for the model to continue to explain the realization's shares, and elements that are not finite are replaced by estimated ones. Supply-side Jacobians are how unobserved parts of marginal costs have to change for prices to be explained as well, if costs are linear or prices are those of an equilibrium. Averages over independent draws are unbiased for expected Jacobians, their variance falls with the number of draws, and instruments converge with probability one to those for expected Jacobians. With the approximate method one draw of zero errors is used whatever the number of draws. Other numbers of draws are rejected if and only if they are not positive.", "quantifier": "all economies, parameter estimates, drawn errors, given or solved prices, numbers of processes and schedules of markets, numbers of draws and error distributions", "why_tests_cant": "A test runs a few draws with one schedule. Agreement of prices, mean utilities and shares is needed in all of them, and convergence is about infinitely many draws.", "anchors": ["pyblp/results/problem_results.py:ProblemResults.compute_optimal_instruments", "pyblp/results/problem_results.py:ProblemResults._compute_realizations", "pyblp/markets/economy_results_market.py:EconomyResultsMarket.safely_solve_equilibrium_realization", "pyblp/markets/economy_results_market.py:EconomyResultsMarket.safely_compute_jacobian_realizations", "pyblp/utilities/basics.py:generate_items"]}
{"id": "C148", "title": "Choices, second choices and consumer surplus are those of consumers who maximize utility", "statement": "Choice probabilities of products and of the outside option are the probabilities with which a consumer who chooses what has the highest utility chooses them, when utility is the sum of mean utility, its agent-specific part and a taste. Without nesting, tastes are independent with type I extreme value distributions, multiplied by the scale of tastes. With nesting, their joint distribution is the generalized extreme value one of a two-level nested logit model. This holds for each set of alternatives: with products that are not available to an agent, products that are eliminated, and without the outside option. Ties have probability zero. Market shares are shares of such consumers. What weights of second choice micro data are multiplied by is the probability that a consumer chooses the one alternative, and the other if the first is not available. When products are removed by ID, it is the probability of choosing any product with the ID first. Consumer surplus is what consumers expect from their best alternative, net of the mean of tastes and divided by their dislike of prices. As the scale of tastes goes to zero all consumers choose the alternative with the highest utility net of tastes, and as it grows all alternatives become equally likely.", "quantifier": "all markets, mean utilities, agents, scales of tastes, nesting parameters below one, availability, eliminated products, and all laws of tastes with the stated distribution functions", "why_tests_cant": "Probabilities over continuous tastes are integrals. A test can simulate consumers, but only up to sampling error and for a few markets.", "anchors": ["pyblp/markets/market.py:Market.compute_probabilities", "pyblp/markets/market.py:Market.compute_micro_dataset_contributions", "pyblp/markets/economy_results_market.py:EconomyResultsMarket.safely_compute_consumer_surplus", "pyblp/economies/economy.py:Economy"]}
{"id": "C149", "title": "Equilibrium prices are best responses, and reported second order conditions tell", "statement": "Prices that are computed as an equilibrium are prices at which no firm can gain by charging other prices, however different they are. Conversely, whatever demand is, prices at which no firm can gain are ones at which the iteration for prices stays where it is, profit gradients that simulations report are zero and no reported eigenvalue of a profit Hessian is positive. Reported profit Hessians are symmetric, so that computing eigenvalues from one triangle only loses nothing. If the reported norm of the gradient of a firm is zero and all its reported eigenvalues are negative, all small enough changes of its prices, of one or of many at once, lower its profits.", "quantifier": "all markets, demand, costs, ownership by firms, prices and changes of prices", "why_tests_cant": "A best response is a statement about all other prices of a firm. Tests compare a few prices.", "anchors": ["pyblp/markets/market.py:Market.compute_equilibrium_prices", "pyblp/markets/market.py:Market.compute_profit_jacobian", "pyblp/markets/market.py:Market.compute_profit_hessian", "pyblp/markets/simulation_market.py:SimulationMarket.compute_endogenous", "pyblp/economies/simulation.py:Simulation.replace_endogenous", "pyblp/utilities/algebra.py:precisely_compute_eigenvalues"]}
{"id": "C150", "title": "With nested logit demand, simulated equilibria exist, are unique, are found from marginal costs, and mergers harm consumers", "statement": "With nested logit demand, nesting parameters that are not negative, constant marginal costs and ownership by firms, there is exactly one set of equilibrium prices, whether an equilibrium means that the iteration for prices stops or that no firm can gain by changing its prices. In equilibrium all prices are above costs, and products of a firm in a nest have the same markup: the inverse of price sensitivity plus what the firm earns per consumer, times a factor that increases with the share of the firm in the nest. If products of each firm are in one nest, iteration that starts at marginal costs, as simulations do by default, raises prices in each step, never to more than the equilibrium, converges to it, and reports convergence if it may evaluate often enough; so does iteration that starts at any prices that are not below costs and that its first step does not lower, in particular at equilibrium prices before a merger, as merger simulations do by default. If firms merge, whatever nests their products are in, all prices rise, also those of firms that do not merge, each firm earns at least what its products did before, and more unless one firm then has all products, more consumers choose the outside good, and consumer surplus falls.", "quantifier": "all markets with nested logit demand, of any size, all nests, nesting parameters that are not negative, utilities, price coefficients, costs, firms and mergers", "why_tests_cant": "Existence, uniqueness, convergence and signs of effects of mergers are statements about infinitely many prices and markets; tests look at a few.", "anchors": ["pyblp/markets/market.py:Market.compute_equilibrium_prices", "pyblp/markets/simulation_market.py:SimulationMarket.compute_endogenous", "pyblp/economies/simulation.py:Simulation.replace_endogenous", "pyblp/results/economy_results.py:SimpleEconomyResults.compute_prices", "pyblp/results/economy_results.py:SimpleEconomyResults.compute_consumer_surpluses"]}
{"id": "C151", "title": "With logit and nested logit demand, simulated increases of costs are passed through, but not by more than their size", "statement": "With plain or nested logit demand, nesting parameters that are not negative, constant marginal costs and ownership by firms, compare simulated equilibrium prices for two sets of costs, where costs of all products of a firm change by the same amount. If no costs fall, no price falls, whether or not firms also merge; prices of products with costs that rise do rise; then more consumers choose the outside good and consumer surplus falls; and firms with costs that do not change do not earn less. Without mergers, if some costs rise, all prices rise, also those of other firms, which earn more. If products of each firm are in one nest, no costs fall, and costs are still not above prices, iteration for new prices that starts at the old ones raises prices in each step and converges to the new ones. Without mergers, no price rises by more than the largest increase of costs, or at all if costs only fall. If costs change by different amounts within a firm this need not be: if a firm has all products, in one nest, and costs of some rise, prices of its products with costs that do not change fall.", "quantifier": "all markets with plain or nested logit demand, of any size, all nests, nesting parameters that are not negative, utilities, price coefficients, firms, mergers, and pairs of costs", "why_tests_cant": "Signs and bounds of effects in equilibrium are statements about all markets and all changes of costs; tests look at a few.", "anchors": ["pyblp/markets/market.py:Market.compute_equilibrium_prices", "pyblp/results/economy_results.py:SimpleEconomyResults.compute_prices", "pyblp/results/economy_results.py:SimpleEconomyResults.compute_consumer_surpluses", "pyblp/results/economy_results.py:SimpleEconomyResults.compute_profits"]}
{"id": "C152", "title": "With nested logit demand, costs recovered from prices are the only ones that rationalize them, and are a sound basis for merger simulation", "statement": "With nested logit demand, nesting parameters that are not negative, ownership by firms and observed shares that demand explains, the linear system for markups always has exactly one solution, whatever nests products of a firm are in. Recovered marginal costs are below prices, and they are the only costs for which no firm could gain by changing its observed prices. With these costs and the same firms, simulated prices are the observed ones and no others. If firms are believed to have more products, no recovered cost is higher, and costs of products of firms that have more are lower. After a merger, approximate prices of products of firms that merge are above old prices; those of other firms are old prices, although all new equilibrium prices are above old ones. Old prices are still an equilibrium after a merger if and only if costs are those recovered with ownership after it, which are lower than before for all products of firms that merge and unchanged for others. If products of each firm after the merger are in one nest, iteration for prices from observed prices raises prices in each step and converges to the prices at which no firm can gain by changing its own.", "quantifier": "all markets with nested logit demand, of any size, all nests, nesting parameters that are not negative, utilities, price coefficients, observed prices, firms and mergers", "why_tests_cant": "That a linear system is never singular, that no other costs rationalize prices, and signs of effects of ownership are statements about all markets; tests look at a few.", "anchors": ["pyblp/markets/market.py:Market.compute_eta", "pyblp/results/economy_results.py:SimpleEconomyResults.compute_costs", "pyblp/results/economy_results.py:SimpleEconomyResults.compute_approximate_prices", "pyblp/results/economy_results.py:SimpleEconomyResults.compute_prices"]}
{"id": "C153", "title": "Default shifters of optimal instruments are the excluded characteristics", "statement": "When results of optimal instruments are turned into a problem without passing formulations of shifters, default supply shifters are exactly the exogenous characteristics in X3 (all terms without shares, except for the intercept) that are not exogenous characteristics in X1, and default demand shifters are those in X1 without prices that are not in X3. All such characteristics are always among the shifters, none is listed twice, there are none without a supply side, and columns of shifters depend on neither prices nor shares. If formulations are passed, their intercept is ignored, a formulation without variables means no shifters, and the call fails with a TypeError exactly if something else is passed or there is no supply side. (The code compares names of terms, so characteristics that are products written in different orders on both sides, such as a:b and b:a, are wrongly added to instruments for both sides.)", "quantifier": "all linear formulations of demand and supply, all product data, and all arguments for shifters", "why_tests_cant": "Tests use a few formulations in which interactions are written in the same order on both sides.", "anchors": ["pyblp/results/optimal_instrument_results.py:OptimalInstrumentResults.__init__", "pyblp/results/optimal_instrument_results.py:OptimalInstrumentResults.to_problem", "pyblp/configurations/formulation.py:parse_term_expression"]}
{"id": "C154", "title": "Micro moments are accepted exactly if well-formed, and their gradients are those of their values", "statement": "A micro moment is constructed exactly if its name is a string, its value is one finite number, and either there is a single part, for which functions are optional, or there is a nonempty sequence of parts with different names, in which datasets with the same name are the same, with functions for both the value and its gradient. With a single part and no functions, the value of the moment is that of the part and the gradient is that of the value; with right functions, gradients are right as well. (A single part with a function for the value but none for the gradient is silently accepted, and its gradient is wrong.)", "quantifier": "all arguments of a micro moment, and all values of its parts", "why_tests_cant": "Tests construct a few valid moments, and combinations of arguments and values of parts are infinitely many.", "anchors": ["pyblp/micro.py:MicroMoment.__init__", "pyblp/micro.py:default_compute_value", "pyblp/micro.py:default_compute_gradient"]}
{"id": "C155", "title": "With logit or nested logit demand, simulated exit raises prices and profits of those who remain and harms consumers", "statement": "With plain logit or nested logit demand, constant marginal costs and ownership by firms, compare simulated equilibrium prices with and without products of some firms. If firms leave, all prices of firms who remain rise, in all nests, and so do their profits; more consumers choose the outside good; and consumer surplus falls, by more than it does when prices stay the same. With plain logit demand, shares of firms who remain rise too. With plain logit demand, and with nested logit demand if products of each firm who remains are in one nest, iteration for new prices that starts at old ones raises prices in each step, never above new ones, and converges to them. Read in reverse, entry lowers prices of all others and benefits consumers. This needs firms to leave as a whole: with plain logit demand, if a firm that has all products gives up some of them, prices of all its other products fall.", "quantifier": "all markets with plain logit demand or nested logit demand with nesting parameters from zero to below one, all costs, all ownership by firms of products in any nests, and all sets of firms that leave or enter", "why_tests_cant": "Tests simulate a few markets; comparing equilibria needs uniqueness and monotonicity for all costs, utilities and numbers of firms.", "anchors": ["pyblp/markets/market.py:Market.compute_equilibrium_prices", "pyblp/economies/simulation.py:Simulation.replace_endogenous", "pyblp/markets/economy_results_market.py:EconomyResultsMarket.safely_compute_consumer_surplus"]}
{"id": "C156", "title": "With logit and nested logit demand, better products of a firm lower prices and profits of rivals and benefit consumers", "statement": "With plain or nested logit demand, nesting parameters that are not negative, constant marginal costs and ownership by firms, compare simulated equilibrium prices for two sets of mean utilities. Better products are the same as lower costs: equilibrium prices are those with costs that are lower by what improvements are worth in units of prices, plus these. If products of some firms become better, each firm's by the same amount, all prices of other firms fall, other firms earn less, prices of better products rise by less than improvements are worth, and prices of products that improve most do not fall. With plain logit demand, firms with products that improve most do not earn less. If some products become better, consumer surplus rises.", "quantifier": "all markets with plain or nested logit demand, of any size, all nests, nesting parameters from zero to below one, utilities, price coefficients, costs, firms, and pairs of mean utilities", "why_tests_cant": "Signs and bounds of effects in equilibrium are statements about all markets and all changes of quality; tests look at a few.", "anchors": ["pyblp/markets/market.py:Market.compute_equilibrium_prices", "pyblp/economies/simulation.py:Simulation.replace_endogenous", "pyblp/results/economy_results.py:SimpleEconomyResults.compute_consumer_surpluses", "pyblp/results/economy_results.py:SimpleEconomyResults.compute_profits"]}
{"id": "C157", "title": "The summary of simulation results reports the worst firm, market by market", "statement": "The printed summary of simulation results is reliable. The number of fixed point failures is the number of markets in which the iteration did not converge. The reported norm of profit gradients is the largest one of all firms in all markets that is finite, and minus infinity without any. If derivatives of profits are numbers, it is within a tolerance if and only if all first order conditions of all firms hold within this tolerance. Reported smallest and largest eigenvalues of profit Hessians are those among all firms for which eigenvalues could be computed. So if there were no errors about eigenvalues and the largest is negative, second order conditions hold for all firms. Firms whose gradient is NaN are skipped silently.", "quantifier": "all numbers of markets, firms and products, and all gradients and eigenvalues, with infinite ones and NaN", "why_tests_cant": "That no firm in no market is missed, for all patterns of infinite and NaN values, is a statement about lists of all lengths.", "anchors": ["pyblp/results/simulation_results.py:SimulationResults", "pyblp/economies/simulation.py:Simulation.replace_endogenous", "pyblp/utilities/algebra.py:precisely_compute_eigenvalues"]}
