# Formal model of jeffgortmaker/pyblp in Lean 4

## 1. What this is

`/verif/lean` contains a Lean 4 model of the parts of pyblp listed in section 4 and theorems about that
model, one or more per property in `properties.jsonl`. `MANIFEST.json` maps properties to theorem names.

* `Verif/Model/*.lean`  – the model: shallow, total functions mirroring the Python function by function. Every
  definition cites the file and lines it models and says what is simplified.
* `Verif/Spec/*.lean`   – small specifications that do not use the model (what a sum over rivals is, what a
  derivative is, what a KKT point is, ...).
* `Verif/Lemmas/*.lean` – helper lemmas.
* `Verif/Props/*.lean`  – the property theorems, with a non-vacuity `example` beside each.

## 2. Modelling decisions

* Real numbers. Python floats are modelled by `ℝ` (or an arbitrary field or commutative monoid when nothing more is
  needed). Rounding, overflow and underflow are *not* modelled; where the code's logic depends on non-finite values
  (iteration, reversion, clipping) the model uses `Option ℝ`, `none` standing for any non-finite float.
* Arrays. A vector with `n` rows is a function `Fin n → α` or a `List α`, a matrix a function of two indices or a Mathlib
  `Matrix`. NumPy's broadcasting and in-place writes become explicit functions on indices.
* Exceptions are values (`Except PyErr α`), warnings and collected errors are lists.
* Library calls (SciPy solvers, patsy, sympy, random number generators, process pools) are parameters of the model.
  Their assumed behaviour is an explicit hypothesis of the theorem that needs it.
* Schedules. `generate_items` with a process pool returns results in an arbitrary order: the model is a list of
  (key, value) pairs that is any permutation of the serial one.

## 3. Trusted base

* Lean 4.33.0's kernel and the axioms `propext`, `Classical.choice`, `Quot.sound` (no others, no `native_decide`).
* The faithfulness of the model to the Python text, checked by reading only (the code cannot be run here).
* Real arithmetic in place of IEEE floating point.

## 4. Plan, property by property

| id | modelled | proof |
|----|----------|-------|
| C01 | `build_id_data` over `Nat`/`Int` | counting multiples, `Nat.div` monotonicity |
| C02 | `build_ownership` on lists of rows, `get_indices` as stable sort + split | index lemma for `get_indices` |
| C03 | `build_blp_instruments` through the `Groups` model | finite sums, partition by firm |
| C04 | `build_differentiation_instruments` | finite sums; documented sign refuted for local+interact |
| C05 | `data_to_dict` on key strings | decimal rendering is injective, prefix argument |
| C06, C07 | `Groups`, `get_indices` (sort order abstract) | permutation lemmas |
| C08, C10 | market keyed assembly as a fold over an arbitrary permutation | writes to disjoint index sets commute |
| C09 | `_combine_arrays` | counterexample when markets = products; positive theorem otherwise |
| C11, C12 | `_compute_importance_weights` with an abstract random stream | two-market counterexample; exact weight identity |
| C13 | pool variable as a state machine with exceptions | induction over programs |
| C14, C15, C16 | `simple_iterator`, `squarem_iterator` with fuel, contraction an arbitrary function to `Option` | induction over the loop |
| C17–C20 | `compute_probabilities` (plain, nested, safe, eliminate) over `ℝ` | algebra of finite sums of exponentials |
| C21 | closed-form branch of `compute_delta`, `_compute_logit_delta` | substitution; uniqueness by monotonicity |
| C22, C23, C25 | the linear contraction, clipping | logarithm algebra; monotone + translation argument |
| C24 | the branch on `fp_type` | refuted for the nonlinear types |
| C26–C29 | Λ, Γ, ξ-Jacobian, contraction Jacobian, profit Jacobian/Hessian | `HasDerivAt` of the model's own shares |
| C30, C31 | `compute_eta`, zeta contraction, profit gradient | linear algebra; refuted for asymmetric ownership |
| C32 | `safely_compute_prices` | refuted (a `SolverStats` object is always true) |
| C33–C37 | diversion, elasticities, HHI, surplus | finite sums, Cauchy–Schwarz, log monotonicity |
| C38 | vec/vech/L/D/K | index arithmetic for all sizes |
| C39 | `approximately_invert` with abstract inverters | case analysis; refuted for the fallback |
| C40–C42 | `IV`, moment covariances, parameter covariances | matrix algebra, PSD lemmas |
| C43–C46 | `Parameters` on index lists | list induction |
| C47–C51 | `Progress`, the GMM loop, error handling, delta behaviours | case analysis, induction over histories |
| C52, C53 | `_compute_difference`, its derivative, the AR loop in `Simulation` | algebra; invariant over chains |
| C54, C55 | `replace_exogenous`, bootstrap clipping | algebra |
| C56–C58 | micro contributions, chunks, parts | finite sums; chunk counterexample for the Jacobian |
| C59–C61 | product rule, sparse grid, Halton, sequences | list induction |
| C62 | first and second central differences | ring for quadratics; error bounds by integrating bounds on the third derivative; second differences by applying the mean value theorem twice |
| C63, C64 | `Products` validation | case analysis; counterexample for lags |
| C65 | `scipy_optimizer` cache | induction over request lists |
| C66 | test statistics | algebra, PSD |
| C67 | `MultipleErrors` | list lemmas |
| C68 | `Agents` with integration | counterexample; positive theorem for sorted data |
| C69 | the scale passed to `state.normal` | counterexample |
| C70 | `update_costs_with_variable` | round trip |
| C71 | `NumericalErrorHandler` | case analysis |
| C72 | `safely_compute_passthrough` | implicit differentiation in the linear algebra form |
| C73 | `extract_matrix` | induction over the column index |
| C74 | Jacobian in `compute_equilibrium_prices` | `HasDerivAt` of the model's own price contraction |
| C75 | GMM gradient with linear parameters concentrated out, `IV` estimates as functions of theta | `HasDerivAt` of the objective; refuted with weight on products of aggregate and micro moments |
| C76 | `compute_gmm_parameter_sensitivity` | implicit differentiation of the first order condition |
| C77 | `lhs` with an abstract random stream | permutations of strata |
| C78 | the quadrature tables in `integration.py`, copied as literals | exact rational arithmetic with error bounds, checked over the whole table |
| C79 | default instruments in `SimulationResults.to_problem` | substitution into the models of C03; counterexample |
| C80 | `compute_optimal_instruments` | matrix algebra, reshaping |
| C81, C82 | probabilities and derivatives of first and second choices (`_compute_micro_dataset_contributions`) | algebra, a measure of consumers for random utility; `HasDerivAt` |
| C83 | `compute_probabilities_by_parameter_tangent` | `HasDerivAt` of the model's own probabilities |
| C84 | `compute_xi_by_theta_jacobian`, `update_..._tangent_mapping` | implicit function theorem, diagonal dominance of the Jacobian of shares |
| C85 | `compute_omega_by_theta_jacobian`, `safely_compute_tilde_costs` | derivative of the solution of a linear system; refuted for clipped costs and gamma |
| C86 | the weights and stopping rule of `compute_equilibrium_prices` | the loop invariant of C15 applied to the price contraction |
| C87, C88 | `compute_micro_scores`, `compute_agent_scores`, what markets and observations contribute to them, checks of `MicroAgents` | `HasDerivAt` from C81, C82, C84; lists of sorted IDs; counterexample in an economy with two markets |
| C89 | `simulate_micro_data`: weights, nonzero entries, truncation of indices, inverse transform sampling | volume of the set of draws; order of a set as a parameter |
| C90 | `replace_endogenous`, `compute_endogenous` | rows of assembled arrays (C08), uniqueness of mean utilities (C23), fixed points and costs (C31); a monopolist as a counterexample |
| C91 | `compute_sigma_squared_vector_covariances`, `extract_sigma_vector_covariances`, `sigma_squared_se` | entries of the pseudo-inverse of the duplication matrix from the Moore-Penrose conditions; `HasDerivAt` of elements of `sigma * sigma'` in `theta` |
| C92 | `Absorb.__call__`, absorption in `Problem.__init__` and `_compute_progress`, default weights of `solve` | Frisch-Waugh-Lovell for stacked two-stage least squares: projections on instruments agree on residuals orthogonal to fixed effects, and normal equations have one solution |
| C93 | `_compute_mean_G`, conversion of Jacobians in `_compute_progress` and `IV.estimate`, `compute_gmm_parameter_covariances` | `HasDerivAt` of each averaged moment along each parameter; with covariance moments the reported Jacobian is the actual one times a unipotent matrix, which leaves covariances of theta unchanged; refuted with two products otherwise |
| C94 | `_compute_progress` from linear parameters to the gradient for all moment types, with analytic and differenced Jacobians | linearity of difference operators, differentiability of inverses by Cramer's rule, and the envelope argument with normal equations; refuted with `finite_differences` and an estimated autocorrelation |
| C95 | the whole of estimation from instruments to standard errors (`Model/Estimation`): default weights, search, final evaluation, covariances, updated weights, reported covariances | a change of basis of moments carried through each function; induction over GMM steps |
| C96 | which regression an evaluation uses, and the Hessian as differences of gradients of further evaluations | the regression does not change unless autocorrelations do; symmetry of second derivatives; refuted with a name that is rebound before it is passed on (problem.py:1466 and 1573) |
| C97 | the same functions as C95 | each function of `Model/Estimation` equals a formula in the specification; steps chained with C48, errors with equations_eq, covariances with C41, linear parameters with C40, Jacobians with C93 and uniqueness of derivatives |
| C98 | `parameter_sensitivity` in `Model/Estimation` | first-order condition and completion of the square; concrete two-product problem for the refutation |
| C99 | reported covariances, weighting matrices and standard errors of `Model/Estimation` | Gauss-Markov: the difference of covariances is `A S A'`; the witness of C98 for the refutation |
| C100 | Expressions, factors and terms; Patsy's coding of categorical factors; contrast matrices; names of indicators; the replacement of variables by indicators; underlying data; overrides; SymPy's rules of differentiation; the cache of derivatives (Model/Formulation) | Induction on expressions, on terms, and on the terms of a bucket; an invariant of the greedy simplification of subsets, in which each subset has absorbed those without its first factors (Lemmas/Simplify); codings partition subsets, which gives the converse; names without brackets make indicator names injective; calculus rules for derivatives; a formula for which a categorical variable is left in an expression |
| C101 | The checks of product data in order, including the precedence of `not` and `and`; groups of markets; the loading of variables with fallback indices; exceptions of Patsy for missing values and how they are caught (Model/Validation) | Case analysis on the checks; sums and counts by group from C06; induction on products for product-specific demographics; concrete data for what is accepted wrongly |
| C102 | Lists of columns: excluded instruments, expressions of X1 and X3, absorption column by column, which parameters are dropped, overrides with expected prices and shares, shifters (Model/OptimalProblem) | Expressions only depend on their symbols; induction on columns; counting of parameters by disjoint sets of columns; a problem with shares in X3 |
| C103 | The loading or drawing of shares, prices and other variables with an arbitrary generator as a state machine; the sorting of sets of names; the structuring of agent data with and without an integration configuration (Model/SimulationData) | An invariant of the loop (state of the generator, distinct call numbers, values), uniqueness of sorted permutations; C68 for agents; concrete data for what is misaligned |
| C104 | `format_vector`, `format_rho`, `format_phi`, `format_beta`, `format_gamma`, `format_nonlinear_coefficients`, `compress_labels`, `format_table` in Model/Tables | Cells of rows found by splitting concatenations; fixed elements by the partition of C44; lines by induction on joined cells; two counterexamples with accepted parameters |
| C105 | `precisely_identify_collinearity`, `precisely_identify_psd`, `precisely_identify_stable`, `_detect_collinearity`, `_require_psd`, `_require_stable` with decompositions as parameters (Model/MatrixChecks) | Distances are preserved by orthonormal columns, and triangular systems with nonzero diagonals are solved; uniqueness of positive semidefinite square roots; concrete matrices for what is false |
| C106 | The loops of `bootstrap`, `safely_solve_equilibrium_realization` and markets of `BootstrappedResults` with overridden data, with the iteration as a parameter (Model/BootstrapDraws) | Rows of draws by induction over finished work in any order; changes of characteristics telescope, so that what is unexplained is left; first order conditions from C31 |
| C107 | `_select_market_ids`, shapes required by `_coerce_*`, `_combine_arrays` of results and of bootstrapped results with arguments, `safely_extract_diagonal(_mean)` (Model/PostArguments), with methods of markets as parameters | Rows of markets and positions as in C08 and C09; items of a draw are a filtered schedule of markets, so that C09 applies to each draw |
| C108 | Methods of results for one market with optional arguments: `get_ownership_matrix`, probabilities, shares, costs, approximate and equilibrium prices, markups, profits, consumer surplus (Model/Counterfactuals), with the iteration as a parameter | Changes of characteristics telescope; C30 for costs before and C31 for prices after a merger, ownership by firm IDs being symmetric |
| C109 | Routines as programs that ask, answered through the counters of `_optimize` and `_iterate`, the caches of `scipy_optimizer` and Knitro, and the wrapper of `scipy_iterator` (Model/Solvers) | Induction on programs: states of the wrappers simulate a run with nothing in between |
| C110 | `__init__` of the three configurations, with options as dicts of objects that may be integers, floats, functions or something else; checks of random coefficient types, epsilon's scale and types of fixed points (Model/Configurations) | Case analysis; NaN refutes that tolerances are nonnegative |
| C111 | `Formulation.__init__` after parsing, `_build_ids`, `interact_ids` (Model/AbsorbedIds) | Case analysis and induction over factors; combined with C92's demeaning |
| C112 | `Market.__init__` (nodes, demographics, `rho`), `compute_random_coefficients`, `compute_single_random_coefficient`, `compute_mu` with arrays of two and three dimensions, NumPy's assignment to masked columns (Model/MarketInit); parameters are those of C43-C45 | Counting of nonzero columns; fixed zeros stay zero for every theta (C43); C06 for groups; concrete diagonal sigmas refute the documented choice of columns and checks of micro data |
| C113 | `importance_sampling`, `ImportanceSamplingResults.__init__`, `to_problem` (Model/ImportanceResults) on top of the loop over markets of C12 and `Groups` of C06 | From C12 for every schedule; Cauchy-Schwarz for effective draws; congruence in everything but weights |
| C114 | no new code: the definitions of probabilities, contractions, routines, markups, prices, moments and assembling, and a specification of what it means to write down the same market in another way | every definition commutes with reindexing; induction over evaluations for routines; inverses of submatrices; positions within markets for rows |
| C115 | no new code: demand, supply and price iteration of a market, and a specification of the same preferences with prices in other units | derivatives and tensors are homogeneous; inverses of multiples; induction over evaluations: weighted differences, and ratios in SQUAREM steps, do not depend on units |
| C116 | no new code: the estimation model of C95 with other columns of X1 and X3 | regressors of all moment types are linear in columns; inverses of congruent matrices; residuals are the same, hence searches by induction over evaluations and steps by induction; reported matrices by block algebra |
| C117 | no new code: the contraction of C22, the routines of C14 and C15 | existence by Knaster-Tarski for the contraction truncated from above: at a fixed point where truncation binds total shares would be too large; convergence by squeezing iterates between a decreasing and an increasing sequence; accuracy from what a common change of all mean utilities does to shares, and convexity of the exponential |
| C118 | expansion of theta into parameters of each market, stacking of what markets compute (problem.py:1020-1160, 1364-1373; parameters.py:684-698), micro moments from contributions of all markets (problem.py:1162-1234) | an update of theta is a shift of one parameter of every market; the implicit function theorem for each market (C84, C85, C82), the chain rule through parts of micro moments, existence and uniqueness of mean utilities (C117, C23), and the envelope argument of C94 |
| C119 | moment types of both sides and their validation, absorbed columns, objective, gradient and Jacobian of moments with absorbed fixed effects (problem.py:635-678, 1380-1392, 2089-2105) | residualizing is linear and does not change products with columns orthogonal to fixed effects; then C94, C93 and C118; a three-period witness refutes the case in which absorbed errors of the other side are lagged |
| C120 | `structuralErrors`, `simulateErrors`, `autocorrelate`, `stationaryTransform` (Model/StructuralErrors) | errors are linear in standard draws with coefficients defined by recursion over lags, of which products are computed by induction; the Lyapunov equation has a unique positive definite solution if and only if eigenvalues are inside the unit circle, by Gelfand's formula and quadratic forms (Lemmas/Lyapunov) |
| C121 | `PanelProblem` (Model/WholeProblem) with what iterations report (Model/Iteration) | C117 bounds the distance of reported mean utilities; everything computed from them is continuous: probabilities by their formulas, tangents because they are partial derivatives of continuously differentiable functions (C83), inverses by nonsingularity at exact mean utilities (C84) (Lemmas/ContinuousDelta) |
| C122 | `flProbabilities` (Model/FloatProbabilities): `compute_probabilities` line by line over NaN, infinities and rounded numbers, with the set of problems that are noticed; the format (rounding, largest number) is a parameter | numbers in, numbers or a problem out, operation by operation; NaN and infinities are followed through; with reduced utilities each exponential is at most one and the best product's or the outside option's is one, so denominators are at least one and at most the number of products plus one; without rounding each step is that of `computeProbabilities`; three counterexamples |
| C123 | Checks of `solve`, bounds, singularity warnings, initial values of progress (`Model/SolveArguments`), with the loop over steps and evaluations of `Model/Progress` and `Model/Estimation` | Case analysis of checks against a specification; noninterference: a relation between memories that agree from an address on, kept by induction over evaluations; updated weights depend only on aggregate blocks |
| C124 | `ProblemMarket.solve` and its decorated computations, with floats that may be NaN or infinite and computations as parameters (`Model/MarketSolve`), programs of nested handlers of `Model/Reporting` | Noninterference between computations that agree where they are used; case analysis of which computations are done; induction over programs for handlers that are not restored |
| C125 | `priceContraction`, `computeCosts`, `approximatePrices` and `consumerSurplus` of the models of demand and supply, with one type of consumer and no nesting | Relative markups conjugate the iteration with a map of an oligopoly (`Lemmas/Oligopoly`): existence from a monotone iteration, uniqueness and global optimality from an exponential inequality, convergence from cluster points of deviations, mergers from a subsolution |
| C126 | Functions for demand Jacobians, elasticities, diversion, surplus and passthrough of `Model/Demand` and `Model/PostEstimation` | Choice probabilities do not differ between agents, so that sums over agents collapse; then algebra |
| C127 | `monte_carlo` and `_build_many` with a stream of random variables (`Model/MonteCarlo`), on top of the models of `compute_mu` and `compute_probabilities`; the population is an integral over a multivariate normal distribution (specification in `Props/MonteCarlo`) | Strong law of large numbers for windows of draws at a countable dense set of mean utilities, choice probabilities are uniformly Lipschitz, monotonicity of demand for the inverse, Chebyshev's inequality (`Lemmas/Sampling`) |
| C128 | `integratedJacobian` and `integratedCosts` of `Model/MonteCarlo` on top of `Model/Demand` and `Model/Supply` | Differentiation under the integral with C26 for one chooser, a strong law for averages of bounded uniformly Lipschitz functions times integrable utility derivatives (`Lemmas/Sampling`), continuity of matrix inverses |
| C129 | `Model/Estimation` (`solve`, `linearParameters`, `standardErrors`, `defaultWeights`) with no parameters in theta | The strong law for sums over clusters (`Lemmas/ClusterSampling`) gives limits of all averages that steps of GMM are continuous functions of (`Lemmas/LinearGmm`, `Lemmas/LinearSteps`), almost surely and along a filter of sets with probability converging to one (`Lemmas/InProbability`); the central limit theorem, Chebyshev's inequality and a version of Slutsky's theorem without measurability (`Lemmas/Studentized`) |
| C130 | `Model/EstimationResults` (what results keep of steps of `Model/Estimation`) and `Model/TestStatistics` (`hansen`, `distance`, `wald`) | Statistics are quadratic forms of averages of moments at the truth of which matrices converge (`Lemmas/TestLimits`, with secants of restrictions for the delta method). Limits are projections that factor through as many normal variables as there are degrees of freedom (`Lemmas/Projections`). The central limit theorem for vectors and continuous mapping (`Lemmas/ChiSquared`); `Spec/ChiSquared` is the sum of squares of independent standard normal variables |
| C131 | `Model/EstimationResults`, `Model/TestStatistics` (`lm`) | First order conditions of linear GMM (`Lemmas/LinearSteps`); a witness with one valid restriction |
| C132 | `Model/FormulationArguments`: normalization, checks in the order of the code, and what formulations build from data as parameters | Cases on elements; the specification `Spec.Valid` lists documented conditions |
| C133 | `Model/Estimation`; `Spec/NonlinearSample`: populations of clusters with outcomes that are functions of nonlinear parameters | A uniform law of large numbers (`Lemmas/UniformLaw`); limits of averages at parameters that converge; along each ultrafilter estimates converge to parameters at which population moments are zero |
| C134 | `Model/Estimation`, `Model/EstimationResults`; `Spec/NonlinearNormal`: derivatives of outcomes and of population moments | First order conditions of the concentrated objective (`Lemmas/FirstOrder`), a mean value expansion with derivatives that converge uniformly, and the central limit theorem (`Lemmas/Studentized`) |
| C135 | `Model/TestStatistics`, `Model/Estimation`; `Spec/NonlinearNormal` | Statistics are quadratic forms of averages of moments at the truth because of the expansion of C134; convergence to chi-squared distributions as for C130 |
| C136 | `Model/Probabilities`, `Model/Tangents`, `Model/WholeProblem`, `Model/Estimation`; `Spec/RandomCoefficients` | Mean utilities exist and are unique by C117 and C23, are differentiable by the implicit function theorem, are measurable as limits of contractions (C117), and are Lipschitz continuous in parameters with constants in proportion to the inverse of the outside share. Their computed Jacobian is right by C118. This gives conditions of C133, C134 and C135. An example has a taste parameter that is identified by a monotonicity argument |
| C137 | `Model/BootstrapSampling`, `Model/Estimation`; `Spec/Bootstrap` | Distributions of linear functions of draws are normal by sums of independent normals. A strictly differentiable function is linear up to an error that is small in comparison to the size of draws, which is bounded with high probability, so distribution functions are between those of shifted normals, which converge. Estimates have the same limit by C134 and the delta method. Coverage is the probability that scaled estimation errors are between normal percentiles up to small errors |
| C138 | `Model/BootstrapSampling`, `Model/BootstrapDraws`, `Model/PostEstimation` | The proof of C137 for functions of two arguments, with different variances for bootstrapped and estimated outputs. False for elasticities: a population with one product per market, in which variances are computed in closed form |
| C139 | `Model/Sequences`, `Model/QuasiRandom` | A value's leading digits depend on its index modulo a power of its prime, and the Chinese remainder theorem gives one remainder modulo the product of powers for each box (`Lemmas/HaltonSpread`). Averages are compared with integrals box by box (`Lemmas/BoxAverages`), and quantiles of uniform variables are normal (`Lemmas/NormalQuantile`) |
| C140 | `Model/Sequences`, `Model/QuasiRandom` | A row of a permutation that is equally likely to be any is in each stratum with the same probability, and strata make up the unit interval (`Lemmas/LatinLaw`). Dimensions are independent, and quantiles of uniform variables are normal. Variances add up over strata and dimensions, and means of strata vary (Cauchy-Schwarz) |
| C141 | `Model/OptimalInstruments`, `Model/Statistics` | Covariances and Jacobians of moments are quadratic forms in stacked instruments and covariances of errors, and the difference between covariances of estimates is a quadratic form in the difference of combinations of instruments |
| C142 | `Model/Sampling` | Given who is accepted, accepted candidates are independent draws from a tilted distribution (product of integrals over independent candidates); sums over what is chosen are split by who was accepted and chosen; Chebyshev's inequality for numbers of accepted candidates |
| C143 | `Model/SimulateMicro`, `Model/Micro`, `Model/Moments` | The value of a row is a step function of its uniform number, whose integral is the weighted average (C89). Independence gives expectations and covariances, the strong law gives convergence, and the delta method with the central limit theorem gives limiting distributions. Covariances are those of C57 |
| C144 | `Model/AgentScores`, `Model/Scores`, `Model/SimulateMicro` | Numerators and denominators of scores are weights and sums of weights (C81, C84, C87), and their computed derivatives are derivatives along paths of mean utilities that keep shares. A quotient rule gives derivatives of micro values, and nonnegativity of the average square of a linear combination of scores and values gives the bound. Simulation is from C143 |
| C145 | `Model/PostEstimation`, `Model/Probabilities` | The derivative of a log-sum is the probability-weighted derivative of utilities (derivative lemmas for logit and nested logit sums). The fundamental theorem of calculus gives areas, convergence of exponentiated utilities gives limits, and positive semidefinite derivatives of probabilities give bounds |
| C146 | `Model/Demand`, `Model/Supply`, `Model/PostEstimation` | Derivatives of probabilities with respect to a price are at least as large as without nesting for other products and sum to minus what the outside option gains. The intra-firm matrix then has no positive entries off its diagonal and positive row sums, so a minimum argument gives an inverse without negative entries |
| C147 | `Model/Realizations`: the loop of `_compute_realizations` with its array of mean utilities that is overwritten while other markets are still to be built | Induction over events: rows of a market depend only on its own building and writing. Then C31, C84 and C85 (`Model/RealizationSupply`) at the realization, and the strong law for averages |
| C148 | Nothing new: `computeProbabilities`, `cellProbability` and `consumerSurplus`. `Spec/RandomUtility` has consumers who maximize utility | Without nesting, Fubini and the Laplace transform of the exponential law. With nesting, the Williams-Daly-Zachary theorem: being best is a subgradient of the utility of the best alternative, whose law is a shifted Gumbel one. Tastes with nesting parameters of one half are built from half-normal mixtures |
| C149 | Gradients and Hessians as they are reported for each firm, norms of gradients, and eigenvalues from one triangle (`Model/SecondOrder`) | With nested logit demand, profits of a firm at any other prices are bounded nest by nest with tangents to the exponential and to the power function, which hold with equality at prices that solve first order conditions (`Lemmas/NestedOligopoly`). Profits are differentiable with differentiable derivatives, so second derivatives are symmetric, and a compactness argument turns a negative definite Hessian into a neighbourhood |
| C150 | The iteration for prices of `Model/Supply` with nested logit demand, `simple` iteration of `Model/Iteration` | First order conditions are sufficient even against rivals that charge less, so if all prices rise by at most some amount, profits rise by less than it. Comparing the product whose price differs most between two equilibria, or between before and after a merger, gives a contradiction. The same comparison shows that best responses increase with prices of rivals; they exist because profits are continuous and prices can be bounded, so there is an equilibrium by Tarski's fixed point theorem. If products of each firm are in one nest, next markups increase with markups below best responses, so that iteration from costs is monotone, and it is bounded. Iteration from other prices compares these with the common markup at which the firm has the same demand |
| C151 | The iteration for prices of `Model/Supply` with nested logit demand for two sets of costs | As for C150, with markups relative to costs: at the product whose price rises most relative to what is claimed, profits of its firm rise by less than its markup does, although its share in the nest does not rise |
| C152 | Eta, costs, approximate prices and the iteration for prices of `Model/Supply` with nested logit demand | Markups solve a linear system in which what a firm recovers from its other products has weights that sum to less than one, so at the lowest entry a solution of an inequality cannot be negative. This gives invertibility, and comparisons between firms. The system is the condition under which iteration stops, so C149 and C150 apply |
| C153 | terms as lists of named factors; names of terms, sets of shifters, parsing of passed formulations | names of terms determine factors by induction over the joined string; membership in the difference of sets; refuted for a:b and b:a |
| C154 | the constructor of a micro moment branch by branch, with arguments that may be missing, functions or neither | characterization of accepted arguments by induction over the sequence of parts; derivatives of default functions; refuted for a value function without a gradient |
| C155 | the iteration for prices with plain or nested logit demand in two markets, one with a subset of products | old markups are below their next iterate without products of those who leave, so iteration rises to the unique equilibrium; with nests, conditions of firms at the product whose markup would fall most contradict that firms earn more with fewer rivals; monopoly as the case in which a firm only gives up some products |
| C156 | the iteration for prices with plain or nested logit demand in two markets that differ in mean utilities | first order conditions depend on mean utilities and costs only through utilities at cost, so changes of mean utilities are changes of costs, for which C151 applies |
| C157 | loops over markets and firms in the summary, with Python's and NumPy's comparisons of numbers that can be NaN | induction over nested lists with the set of numbers seen so far as the invariant |

## 5. Findings: where the code does not do what the property says

Each is a theorem with a concrete witness.

* `C04_local_interact_refuted`: C04 fails for the local version with interactions: three products of different firms
  in one market, with characteristic 0, 1 and 10. Product 1 is close to product 0, so the documented rival instrument
  of product 0 is 1; the code returns -1.
* `C09_refuted`: **C09, refutation.** With as many products as markets and rows not sorted by market, product-level
  outputs are returned in the order of the markets and not of the rows: row 0 is a product of market 2 and gets the
  value for market 1.
* `C100_refuted`: **C100** fails for interactions without lower-order terms. In the formula `1 + prices +
  prices:C(region):C(year)`, Patsy codes the last term into columns for years, `prices:C(year)[2]`, and into columns
  for regions and years. PyBLP replaces only variables that are in the name of a column by indicators, so the region,
  which is a number that stands for a category, is left in the expression of the first. The column is the price of
  products in year 2, but its expression is that price times the number of the region: its value, which is used when
  prices change or when fixed effects are absorbed, and its derivative, which elasticities and markups are made of,
  are twice what they should be in region 2. With names of regions that are not numbers, the data cannot be structured
  and an exception is raised instead.
* `C100_refuted_twice`: **C100** fails for a variable that is both numeric and categorical in a term. In the formula
  `size:C(size)`, both are replaced by indicators, so the expression of the column for size 2 is 1 where the column is
  2.
* `C101_refuted_demographics`: **C101** fails for demographics. "Variables in agent_data that contribute to
  demographics should not have NaNs or infinities" is said by the exception, but with an ordinary demographic that is
  missing (NaN) for one agent, Patsy raises an exception, which is taken to mean that demographics are specific to
  products, and these are neither checked by Patsy nor for being finite. The missing value is accepted, as that of
  each product.
* `C101_refuted_lags`: **C101** fails for lags. Lags are documented, and said by the exception, to be between 0 and N
  - 1. With three rows, a lag of 100 is accepted, and so are -5 and 100 together.
* `C102_refuted`: **C102** fails for optimal instruments of supply. When a column of `X3` is in terms of market
  shares, that column, at the observed market shares, is a supply-side instrument of the problem that is created again
  with optimal instruments, although it is not one of the original problem, and although its place is taken by the
  column at expected market shares. Results for which no parameter is in theta are enough.
* `C103_refuted_agents`: **C103** fails for agents with an integration configuration. Market IDs of agent data, which
  are documented to associate agents with markets, are ignored, so that demographics are of the wrong markets unless
  agent data are sorted. Here, the agent of market 1 has a demographic of 10 and that of market 0 has 20; the
  simulation swaps them, although a problem with the same data does not. Agent IDs and availability are ignored too.
* `C103_refuted_rows`: **C103** fails for agents with an integration configuration in another way: it is documented
  that there must be at least as many agents in each market as nodes that are built, but if there are more, a
  simulation is not possible, although a problem with the same data is.
* `C104_refuted_gamma`: **C104 refuted**: standard errors of supply-side linear parameters are shown or hidden
  according to which elements of `beta` are fixed, because `format_gamma` passes the wrong type of parameters
  (pyblp/parameters.py:526). In an accepted configuration, a standard error is printed for an element of `gamma` that
  is fixed, and none is printed for one that is estimated.
* `C104_refuted_rho`: **C104 refuted**: if there is one nesting parameter for two groups, its label in `theta_labels`
  is the ID of the first group, as if it were specific to that group, although the table with estimates says that it
  is for all groups.
* `C105_refuted_stable`: **C105 refuted** (stability): with tolerances, matrices are rejected although their spectral
  radius does not exceed one by more than the absolute tolerance plus the relative one times the spectral radius,
  which is documented to be enough.
* `C105_refuted_tolerances`: **C105 refuted** (collinearity): if only one tolerance is set to zero, nothing is
  identified, although both are documented to have to be zero for the check to be disabled. For example, two columns
  that are the same.
* `C105_refuted_unit_root`: **C105 refuted** (stability): a unit root is accepted with any tolerances that are not
  negative, although the error message says that the spectral radius must be less than one, and although no
  distribution is stationary: there is no variance to which a positive variance of innovations can be added without
  changing it.
* `C110_nan_refuted`: "The iteration option atol must be a nonnegative float" is not enforced: NaN is accepted, with
  which no residual is ever small enough.
* `C112_first_refuted`: **C112, refuted.** It is documented that if columns of `sigma` are fixed at zero, only the
  first few columns of nodes are used. With as many columns of nodes as of `sigma`, this is false: here only one
  column of `sigma` is not zero, two arrays of nodes are equal in their first column, and yet nodes of the market for
  this column of `sigma` differ.
* `C112_micro_refuted`: **C112, refuted.** Numbers of columns of nodes in micro data are not checked. With one column
  of nodes for two random coefficients (and a third characteristic without one), the same draws are used for both.
* `C119_refuted`: **C119, refutation.** With demand-side moments in innovations and fixed effects absorbed on the
  supply side, which `solve` accepts, the derivative of this objective is `8 / 81` and `4 / 27` is computed.
* `C11_refuted`: **C11, refutation.** There are a valid generator, a seed, and two orders in which the same two
  markets can finish, for which importance sampling selects different agents: the draws are taken from one stream in
  the order of completion.
* `C122_availability_refuted`: **C122 is false** when products are not available: utilities are reduced by the largest
  one also if nobody can choose it, so what is left can underflow. The agent's probability of choosing the product
  that is not available should be zero and is NaN. In double precision, a utility of 746 is enough.
* `C122_group_rho_refuted`: **C122 is false** with nesting parameters that differ between nests: the terms that
  correct for the reduction overflow themselves. Here the utilities are 100 and 0 and numbers can be as large as one
  million. In double precision, utilities of 1420 are enough.
* `C122_unsafe_nested_refuted`: **C122 is false** of nested logit without overflow protection: an agent for whom a
  product's utility is NaN or infinite is taken to choose the other product half of the time and the outside option
  the other half, and nothing is noticed. Taste terms overflow to infinity without notice when random coefficients are
  lognormal (pyblp/markets/market.py:162-163).
* `C123_nonpositive_price_refuted`: **C123, finding.** Costs that the first evaluation reverts to are meant to be
  usable, but with log costs and a price that is not positive they are logarithms that are not finite: if costs cannot
  be computed in the first evaluation, costs are still not finite after reversion, and hence neither is the objective.
* `C124_old_numpy_refuted`: **C124, finding.** Before NumPy 2.0, which the package accepts (`numpy>=1.17.0`), an error
  of a computation itself is never reported if the computation begins with one that is also decorated, whatever
  happens after that. The market-level `solve` begins with the contraction, so that floating point problems in the
  computation of probabilities and tangents never give a generic error.
* `C131_chiSquared_refuted`: **C131, not chi-squared.** The claim that the statistic of results of a restricted
  problem, of which restrictions are valid and weights are optimal, is asymptotically chi-squared with degrees of
  freedom equal to the number of restrictions is false. In this population, the restriction that the parameter on a
  second regressor is zero is valid, and estimates and weights converge to right ones, but the statistic is zero.
* `C132_simulation_type_refuted`: A simulation does not raise a documented `TypeError` for sequences that have
  elements of the wrong type, as a problem would: it raises an `AttributeError`, because it first looks for absorbed
  terms in all elements.
* `C138_elasticities_refuted`: **C138 fails for elasticities.** In the population with random signs, the price of each
  product is one and the coefficient on it is `beta0`. All conditions for large samples are met, and the true
  elasticity in a market with signs `x` is `beta0` times one minus the share. If `beta0` is negative, then intervals
  between percentiles of bootstrapped elasticities are too wide, even in the limit, and if `beta0` is between zero and
  one, then they are too narrow: the true elasticity is in them with a probability that converges to a number that is
  different from the nominal one. Draws change both the coefficient and the share, but the estimated elasticity has
  the observed share.
* `C147_given_prices_refuted`: **C147.** Refutation for logarithmic costs when prices are given: a monopolist with an
  expected price of three and a share of one half, for which utility falls by one in the price, has a markup of two,
  so the marginal cost that explains the price is one. When the price coefficient changes, the unobserved part of the
  cost has to change by minus two for the price and share to be explained. But the Jacobian is minus two divided by
  the drawn marginal cost, which has nothing to do with the given price.
* `C149_random_coefficients_refuted`: **C149 fails with random coefficients.** All consumers dislike prices. At a
  price of four the iteration stops, the reported profit gradient is zero and the reported profit Hessian is negative,
  but a price of 104 is more than five times as profitable, because only consumers who dislike prices less buy at it.
* `C153_refuted`: **C153, negation.** If X1 has `a:b` and X3 has `b:a`, a characteristic that is the same on both
  sides is nevertheless a default shifter for both: its columns are among the instruments twice.
* `C154_refuted`: **C154, negation.** A single part with a function for the value but no gradient is accepted: the
  value is not that of the part, and the gradient, which is one, is not that of the value, so that the derivative of
  the moment with respect to a parameter is wrong.
* `C157_hidden_refuted`: The summary does not show that a firm's norm is NaN: the reported number is then that of
  other firms.
* `C23_small_epsilon_refuted`: **C23 fails for small `epsilon_scale`**: with `epsilon_scale = 1/4` (a documented use),
  the map that is iterated can move two vectors apart. Here it maps points at distance `log 2` to points at distance
  more than `2 log 2`.
* `C24_refuted`: The difference is observable: one evaluation with a binding lower bound on shares, which is
  documented to do nothing for a nonlinear fixed point.
* `C28_clipped_refuted`: C28 fails where shares are clipped: in a market with one product and a share below the lower
  bound, the contraction moves one to one with mean utility, but the returned Jacobian is smaller than one.
* `C28_epsilon_refuted`: C28 fails with any other scale of epsilon: in a market with one product and no clipping, the
  Jacobian returned by the contraction is not its derivative.
* `C31_asymmetric_refuted`: C31 fails for asymmetric ownership: when the owner of product 0 also cares about product 1
  but not the other way around, prices that are a fixed point of the price contraction do not satisfy the documented
  first order conditions, and `compute_costs` at these very prices does not return the costs that were used.
* `C32_compute_prices_refuted`: C32 does not hold for `compute_prices`: whatever the iteration returns (converged or
  not), no convergence error is added to those of `compute_costs`.
* `C33_documented_refuted`: C33 fails in general: with utility quadratic in the variable, the reported entry (0, 1) is
  1, while the documented diversion ratio from product 0 to product 1 is 1/2. (The code divides the derivative of the
  share of 0 with respect to the variable of 1 instead of the transpose.)
* `C35_delta_epsilon_refuted`: C35 fails with other scales of epsilon: for one product, the reported elasticity with
  respect to mean utility is the scale times the true one, here twice.
* `C37_epsilon_refuted`: C37 fails with other scales of epsilon: utilities are not divided by the scale but the price
  derivative is, so surplus is not that of the demand system. With one product, mean utility 2, scale 2, and utility
  falling one for one in the price, choice probabilities are `e / (1 + e)`, so the surplus of the demand system is `2
  log (1 + e)`; reported is `2 log (1 + e²)`.
* `C37_prices_refuted`: C37 fails for the documented argument `prices` (pyblp/results/economy_results.py:1102-1104),
  "prices at which utilities and price derivatives will be evaluated": utilities are evaluated at these prices, price
  derivatives at unchanged prices. With one product whose utility falls in its squared price, surplus at a price of 2
  is divided by 2, the slope at the unchanged price of 1, not by 4.
* `C39_refuted`: **C39, refutation.** If the matrix cannot be inverted and the pseudo-inverse is used instead, the
  caller is told nothing.
* `C39_refuted_diagonal`: Nor if the inverted diagonal is used.
* `C39_wrong_name`: When every routine fails, the report does not name what is returned.
* `C49_alias_refuted`: **C49, finding.** With `'revert'` a failing evaluation scales the objective of the *earlier*
  evaluation in place: the objective that was 10 is 20 after an evaluation that fails, although only the new objective
  should be scaled.
* `C50_refuted`: **C50, finding.** If some evaluations do not compute gradients, as with an optimizer that does not
  use them, then later failures revert to NaN: an initially finite Jacobian and gradient are not finite after a clean
  evaluation without gradients and a failing evaluation with gradients.
* `C53_cycle_refuted`: **C53, finding.** Lags with a cycle are accepted, and rows on the cycle do not get the
  contribution of their lags: with lags 0, 2, 1 and `phi` the identity the error of row 1 is its innovation whatever
  the error of row 2 is.
* `C54_constant_refuted`: **C54, refuted for the constant.** The name `'1'` of the constant column passes validation,
  and the results claim a mean utility that their product data do not give: the constant is not replaced.
* `C54_no_supply`: **C54.** With no supply side, a name for it fails an assertion, although the documentation says
  that it is not used then.
* `C55_reversed_refuted`: **C55 does not hold** for parameters that are concentrated out and have bounds in the wrong
  order: there is no starting value to reject the bounds, and the bootstrapped value is below the lower bound.
* `C56_denominator_refuted`: **C56 does not hold** for Jacobians of denominators, and so not for Jacobians of micro
  moments: whether survey weights are the same for all agents is decided chunk by chunk, so with chunks of one agent
  each the Jacobian is zero.
* `C60_zero_refuted`: **C60, finding.** With the accepted options `discard=0` and `scramble=False`, the first value in
  every dimension is zero, for which the quantile function of the normal distribution is not finite.
* `C64_fraction_refuted`: **C64, finding.** A column with a value that is not between 0 and N - 1 can be accepted: 3/2
  with two rows, which is truncated to 1.
* `C64_large_index`: **C64, finding.** The check of the range itself passes for indices that are too large; it is the
  later indexing that fails, with `IndexError`.
* `C68_ids_refuted`: **C68 does not hold** with an integration configuration for data that are not sorted by market:
  demographics are sorted but agent IDs and availability are not. Here, the first agent is in market 0 and has that
  market's demographic, 20, but the ID and availability of the agent in market 1.
* `C69_normal_demand_refuted`: **C69 does not hold**: estimated errors of 0 and 4 have a variance of 4, but errors
  drawn from their normal approximation have a variance of 16.
* `C71_old_numpy_refuted`: **C71, finding.** Before NumPy 2.0, which is allowed (`numpy>=1.17.0`), problems after a
  nested computation are lost: the nested computation's detector stays in place. `ProblemMarket.solve` calls decorated
  computations like this.
* `C73_roundtrip_refuted`: **C73, refutation.** Without the proviso the round trip adds a column: from a data set with
  a field `x` of two columns and a field `x2`, `data_to_dict` returns without error, and loading `x` from its output
  gives three columns.
* `C75_refuted`: **C75, refutation.** With weight on products of aggregate and micro moments (which user-supplied
  weighting matrices and those accounting for simulation error have), the reported gradient is not the derivative of
  the reported objective, even for a positive definite weighting matrix: the objective is constant but the gradient is
  one.
* `C78_level_zero`: **C78.** Level zero, which is not rejected here, gives the rule of the last level.
* `C79_exogenous_refuted`: **C79, refuted for replaced exogenous variables.** After `replace_exogenous`, default
  instruments are sums of the values that the characteristic had before it was replaced: they differ from those of the
  problem's own product data. Two products of one market with different firms; the characteristic of the first has
  been replaced.
* `C81_groups_refuted`: **C81** does not hold when products are removed by ID: the documented probability is the one
  of the first choice times the one of the second choice after all products with the first choice's ID are removed.
  Here three products and the outside option are equally likely and the first two products have the same ID: the
  documented probability is one eighth, but weights are multiplied by one fourth.
* `C81_nested_refuted`: **C81** with nesting: weights are not multiplied by the documented probability, that of the
  first choice times that of the second choice after the first is removed (here 5/18), but by the measure of consumers
  with these choices (here 1/3; see `C81_random_utility`).
* `C82_groups_refuted`: **C82** does not hold when products are removed by ID: the contribution of a first and a
  second choice that are removed together is truncated to zero whatever parameters are, but what the code computes as
  its derivative is not zero. Here both products have the same ID.
* `C85_clipped_refuted`: **C85.** Refutation: the code's derivative of the unobserved characteristic with respect to a
  parameter in `gamma` is zero if the marginal cost is outside of its bounds, although it is minus the characteristic.
  In the example market, at any parameters, with linear costs that have a lower bound above the first marginal cost,
  and a constant in `X3`.
* `C87_markets_refuted`: **C87** needs the condition that there are observations from all markets of the dataset: the
  denominator of an observation's probability is documented to be summed over all markets, but if there are no
  observations from a market, then it is left out, and the score is something else. In this economy, the score of the
  only observation is zero although the derivative of the logarithm of its probability is one third.
* `C88_agents_refuted`: **C88** fails for `compute_agent_scores` with micro data: although it is documented that micro
  data of the form required by `compute_micro_scores` can be passed, demographics are passed twice to a constructor
  that has no parameter for the last argument, so there is a `TypeError` for all micro data. Without micro data, and
  in `compute_micro_scores`, the call is right.
* `C88_negative_refuted`: **C88** needs the restriction: a negative index is not rejected, but selects a choice from
  the end.
* `C89_seed_refuted`: **C89** fails for reproducibility: data are documented to be determined by the seed, but a
  dataset for some markets stores them in a set, over which they are iterated in an order that is not determined by
  data or seed (for strings, Python changes it from one process to the next). With the same draws, another order gives
  other data.
* `C90_constant_refuted`: **C90** needs costs that change with shares if shares are in the formulation for costs: by
  default (`constant_costs=True`), costs of the results are not those of the model at the new shares. The prices are
  an equilibrium at these costs, but what a problem recovers for `omega` is not what was simulated.
* `C93_refuted`: **C93, refutation.** With covariance moments, the reported Jacobian need not be that of the moments:
  here the derivative of the demand-side moment with respect to theta is `3 / 2` and `0` is reported. Because of this,
  reported variances of linear parameters can be wrong: that of the constant in mean utility is `13 / 4` and `1` is
  reported. All regularity conditions are met: the Jacobian has full rank, both matrices that are inverted have
  inverses, and moments are differentiable.
* `C94_refuted`: **C94, refutation.** With `finite_differences` and an estimated autocorrelation of `1 / 2`, the
  derivative of this objective with respect to the autocorrelation is `1 / 18`, and `0` is reported whatever the
  differences are.
* `C96_refuted`: **C96, refutation.** There is one estimated autocorrelation, and the objective and the gradient are
  correct for each of its values. At a strict local maximum, the reported gradient is zero and the reported Hessian is
  positive for every step of differences, as it would be at a minimum.
* `C98_refuted`: **C98 is false of the code.** With unadjusted standard errors in the first step, the reported
  sensitivity is not that of the estimates: after one-step GMM with the default weighting matrix and both sides of the
  market, there is a change in moments to which estimates do not respond as reported. The reported matrix uses a
  weighting matrix that was made for scaling unadjusted covariances (pyblp/results/problem_results.py:547-563) rather
  than the one that results report as `W`.
* `C99_refuted`: **C99 is false of the code.** Unadjusted standard errors after one-step GMM with the default
  weighting matrix can be smaller than those of the estimates, which are at the global minimum of the objective: they
  are those that estimates would have in the problem's efficient GMM. Documentation says that unadjusted standard
  errors are for weighting matrices that equal the inverse of covariances of moments; in the first step they are
  computed as if this had been so.

Smaller ones, without a theorem of their own (from reading):

* `compute_probabilities(linear=False)` with a utility reduction and nesting scales the reduction wrongly; nothing calls it that way.
* The stable tolerance of the iteration differs from the one in the documentation, and the collinearity check is skipped if one of the two
  tolerances is zero.
* `safely_compute_passthrough` uses an intra-firm matrix that is not transposed (C72 is about the linear algebra that follows).
* `format_gamma` reports a `BetaParameter`.
* `OptimalInstrumentProblem` adds endogenous columns of `X3` to `ZS`.
* Labels of a single nesting parameter are compressed wrongly; score numerators accept negative indices.
* Scrambled Halton permutations are drawn again for each market.
* `structure_matrices` broadcasts a single row of `agent_ids` or availability.

## 6. What is modelled and what is not

Modelled, by file (each definition cites its lines):

* `construction.py`: IDs, ownership, BLP and differentiation instruments, `data_to_dict`. Not: `data_to_dict`'s treatment of objects other than
  records, `build_matrix`, `build_integration` (a wrapper), `read_pickle`, `save_pickle`.
* `configurations/integration.py`: all rules, with SciPy's and NumPy's nodes and random streams as parameters. Not: `qmc` scrambling of Sobol' points.
* `configurations/iteration.py`: simple and SQUAREM iteration, bounds, the return-and-scale-time wrapper. Not: SciPy's methods.
* `configurations/optimization.py`: the cache around SciPy. Not: the optimizers.
* `configurations/formulation.py`: symbolic expressions with their names, values after overrides and derivatives (`Model/Formulation`, C54 and
  C100); expansion of absorbed terms into IDs (`Model/AbsorbedIds`); acceptance of configurations (`Model/Configurations`, C110). Parsing of
  strings by patsy and SymPy is a parameter.
* `markets/market.py`: everything except the hard-coded shortcuts that do not change values (price derivatives evaluated once, cached
  arrays), and `compute_bounds`-style logging.
* `markets/problem_market.py`, `markets/simulation_market.py`, `markets/economy_results_market.py`: solving for mean utilities and prices,
  costs, elasticities, diversion, HHI, markups, surplus, passthrough, profit, scores, simulated micro data.
* `economies/problem.py`: validation of `solve`, weighting matrices, the GMM loop, `_compute_progress`, reversion of errors, the projected
  gradient, the Hessian by finite differences, arguments of `solve` (`Model/SolveArguments`), and formulations passed to `Problem`
  (`Model/FormulationArguments`). Checks of collinearity and of singular matrices use SciPy's decompositions as parameters (`Model/MatrixChecks`).
  Not: printing, checkpoints.
* `economies/economy.py`: difference operators of dynamic panels, default bounds. Absorption of fixed effects as
  an orthogonal projection (PyHDFE itself is a parameter).
* `economies/simulation.py`: arguments, simulated and default product data (`Model/SimulationData`), drawing structural errors,
  autoregressions, `replace_endogenous`, `replace_exogenous`.
* `results/*.py`: covariances, standard errors, tests, bootstrap, optimal instruments, importance sampling, `to_problem`. Tables of
  numbers are `Model/Tables` and `Model/Reporting`. Not: `to_dict`, pickling.
* `parameters.py`, `micro.py`, `primitives.py`: as listed in section 4.
* `utilities/algebra.py`, `utilities/statistics.py`, `utilities/basics.py`: all numerical functions, `Groups`, parallel `generate_items`,
  error handlers. Not: time formatting, `warn`.

Probability is over Mathlib's measures: draws of nodes (`Model/Sampling`, `Model/MonteCarlo`), of structural errors (`Model/StructuralErrors`), of
bootstrap parameters (`Model/BootstrapDraws`), and of clusters of products (`Spec/LargeSample`, C129 to C131). Pseudo-random numbers are
taken to be independent draws from the distribution that NumPy documents.

Not modelled at all: rounding, overflow to infinity except where values become `none`, memory sharing between arrays except where a property is
about it (C49), the operating system, and everything under `docs/` (used as the source of intended behaviour).

## 7. How theorems were tested

`seeded/LOG.jsonl` has one line per edit of the model in a scratch copy: what was edited, the claim that the edit breaks, the theorems that
failed, and theorems that were tightened when none did.

## 8. Axioms

`AXIOMS.txt` lists, for each theorem in `MANIFEST.json`, what `#print axioms` prints. All are among `propext`, `Classical.choice` and
`Quot.sound`.
