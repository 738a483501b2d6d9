# ---- appended while modelling ----------------------------------------------
CL = "pypfopt/cla.py"
p("CLA frontier points are efficient",
  "No point of CLA.efficient_frontier is dominated: no portfolio within the bounds has at least its expected return and strictly smaller variance.",
  "every mean vector with distinct entries, every positive definite covariance, every bounds",
  "optimality over a continuum, at every turning point",
  [CL + ":CLA._solve", CL + ":CLA._get_matrices", CL + ":CLA.efficient_frontier"])
p("CLA.max_sharpe maximises the Sharpe ratio",
  "No portfolio within the bounds has a Sharpe ratio above that of CLA.max_sharpe's answer by more than the accuracy of its line search.",
  "every mean vector with distinct entries, every positive definite covariance, every bounds",
  "global optimality over a continuum",
  [CL + ":CLA.max_sharpe", CL + ":CLA._solve"])
p("A failed CLA solve is not mistaken for a solution",
  "If a CLA call raises while solving, a later call on the same object raises again or returns a correct answer; it never returns from partial results.",
  "every sequence of calls",
  "needs a failing call followed by another",
  [CL + ":CLA._solve", CL + ":CLA.min_volatility", CL + ":CLA.max_sharpe"])
p("CLA does not depend on the spelling of the bounds",
  "The same numeric bounds given as one pair, as a list of pairs, or as a pair of arrays, with integers or floats, give the same CLA results.",
  "every bounds spelling",
  "all spellings and number types",
  [CL + ":CLA.__init__", CL + ":CLA._init_algo"])
BLF = "pypfopt/black_litterman.py"
p("An accepted Black-Litterman model is well formed",
  "Whatever the arguments, if the constructor succeeds then risk aversion is positive, tau is in (0, 1], prior and views have matching dimensions, and an uncertainty matrix computed by the library is diagonal with non-negative entries; non-positive risk aversion or tau outside (0, 1] raises ValueError.",
  "every combination of constructor arguments",
  "combinatorial argument space with data-dependent branches",
  [BLF + ":BlackLittermanModel.__init__", BLF + ":BlackLittermanModel._set_omega", BLF + ":BlackLittermanModel._set_pi"])
p("Black-Litterman performance uses the posterior whatever was called before",
  "After bl_weights, portfolio_performance reports the return under the posterior returns, the volatility under the posterior covariance and their ratio for the current weights, in any order of other calls; without weights it raises ValueError; with only set_weights it reports the volatility alone.",
  "every sequence of public calls",
  "needs all interleavings of cached computations",
  [BLF + ":BlackLittermanModel.portfolio_performance", BLF + ":BlackLittermanModel.bl_weights"])
p("Market-implied risk aversion",
  "market_implied_risk_aversion does not change when all prices are multiplied by a constant, times the annualised variance it equals the annualised excess return, and it is positive exactly when the market return exceeds the risk-free rate.",
  "every complete price series, frequency > 0, risk-free rate",
  "unbounded price series",
  [BLF + ":market_implied_risk_aversion"])
RM = "pypfopt/risk_models.py"
p("Spectral repair is the nearest covariance",
  "For a symmetric matrix that needs repair, fix_nonpositive_semidefinite with the spectral method returns a positive semidefinite matrix no further away, in the Frobenius norm, than any other positive semidefinite matrix, and repairing the result again changes nothing.",
  "every symmetric matrix of any size",
  "optimality over a continuum of matrices",
  [RM + ":fix_nonpositive_semidefinite"])
EF_ = "pypfopt/efficient_frontier/"
p("Copies report their own risk",
  "Work on one optimiser object leaves what another object reports unchanged: after copying an object, optimising the copy does not change the weights, return, CVaR, CDaR or semideviation reported by the original.",
  "every history of calls and copies",
  "needs a copy, a call on it and another look at the original",
  ["pypfopt/base_optimizer.py:BaseConvexOptimizer.deepcopy", EF_ + "efficient_cvar.py:EfficientCVaR.portfolio_performance", EF_ + "efficient_cdar.py:EfficientCDaR.portfolio_performance"])
p("Constructors refuse inputs of different sizes",
  "An accepted EfficientFrontier or CLA has one ticker, one pair of bounds, one row and column of covariances and (if given) one expected return per asset; inputs of other sizes raise ValueError, inputs of other types TypeError.",
  "every combination of expected returns, covariance and bounds, labelled or not, of any size",
  "combinatorial argument space",
  [EF_ + "efficient_frontier.py:EfficientFrontier.__init__", EF_ + "efficient_frontier.py:EfficientFrontier._validate_expected_returns", EF_ + "efficient_frontier.py:EfficientFrontier._validate_cov_matrix", CL + ":CLA.__init__"])
p("Labelled inputs are matched by label",
  "When expected returns and covariances carry asset labels, the optimiser uses for each asset the expected return and the covariances given for that asset, in whatever order they are listed.",
  "every pair of labelled inputs",
  "needs inputs in different orders",
  [EF_ + "efficient_frontier.py:EfficientFrontier.__init__"])
p("The tail-risk optimisers take one consistent set of assets",
  "EfficientCVaR, EfficientCDaR and EfficientSemivariance accept the same inputs: the number of return columns must match the expected returns, which may be omitted; the days used are those without missing returns; assets are named after the inputs' labels.",
  "every combination of expected returns, returns table, confidence level and bounds",
  "combinatorial argument space",
  [EF_ + "efficient_cvar.py:EfficientCVaR.__init__", EF_ + "efficient_cdar.py:EfficientCDaR.__init__", EF_ + "efficient_semivariance.py:EfficientSemivariance.__init__", EF_ + "efficient_frontier.py:EfficientFrontier._validate_returns"])
DAF = "pypfopt/discrete_allocation.py"
p("Latest prices are last quotes",
  "get_latest_prices returns for every asset its most recent price that is present; a DiscreteAllocation built from it prices each asset at that quote, and is refused with TypeError exactly when some column has no quote at all.",
  "every table of prices, with any pattern of missing values",
  "all patterns of missing values",
  [DAF + ":get_latest_prices", DAF + ":DiscreteAllocation.__init__"])
p("The reported allocation error",
  "With verbose=True, a long-only greedy_portfolio or lp_portfolio reports the root mean square difference between each target weight and the share of the invested money in that asset; it is 0 exactly when all shares equal the weights, and at most sqrt(2/n) for n assets with weights summing to at most one.",
  "every valid long-only portfolio, price series and total value",
  "all portfolios and numbers of assets",
  [DAF + ":DiscreteAllocation._allocation_rmse_error"])
HP = "pypfopt/hierarchical_portfolio.py"
p("HRP reports the performance of its weights",
  "HRPOpt.portfolio_performance reports the annualised return, volatility and Sharpe ratio, at the means and sample covariances of the returns the object was made from, of the weights the last successful optimize returned or set_weights was given; with a covariance matrix only, just their volatility; before any success it raises ValueError. It agrees with the module-level portfolio_performance on the returned weights.",
  "every table of returns, every history of calls, every frequency and risk-free rate",
  "all histories and tables, including missing values",
  [HP + ":HRPOpt.__init__", HP + ":HRPOpt.portfolio_performance"])
PLF = "pypfopt/plotting.py"
p("CLA reports the last portfolio and answers in any order",
  "CLA.portfolio_performance reports return, volatility and Sharpe ratio, at the data given to the constructor, of the portfolio that max_sharpe, min_volatility or a plot showed last; before that it raises ValueError. If the problem can be solved, max_sharpe, min_volatility and efficient_frontier each give the same answer whatever was called before, and frontier_values holds the frontier shown last.",
  "every problem and every sequence of calls, failed ones included",
  "unbounded call sequences",
  [CL + ":CLA.max_sharpe", CL + ":CLA.min_volatility", CL + ":CLA.efficient_frontier", CL + ":CLA.portfolio_performance"])
p("The plot of a CLA object",
  "plot_efficient_frontier draws for a CLA object the frontier with the number of points asked for and marks the portfolio of maximum Sharpe ratio, whatever was called before; the points drawn are the returns and volatilities of the frontier's weights, of the marked weights and of the single assets.",
  "every problem, history of calls and number of points",
  "depends on the history of the object",
  [PLF + ":_plot_cla", PLF + ":plot_efficient_frontier"])
p("CLA does not depend on units",
  "If all expected returns are multiplied by a positive number and all covariances by another, every sequence of calls on a CLA object gives the same weights and the same exceptions; reported and drawn returns, volatilities and Sharpe ratios change by the corresponding factors.",
  "every problem, both factors, every sequence of calls",
  "a relation between two runs of an iterative algorithm",
  [CL + ":CLA._solve", CL + ":CLA._purge_excess", CL + ":CLA._golden_section", CL + ":CLA._eval_sr"])
p("HRP clusters assets by the distance of their correlations",
  "HRPOpt.optimize hands to the hierarchical clustering, for each two assets, the distance sqrt((1 - rho) / 2) of their correlation rho over the observations that have both; from a covariance matrix the correlation is rounded to six decimals. Distances are symmetric, lie between 0 and 1 and vanish on the diagonal, so neither the clipping nor the condensed form loses anything.",
  "every table of returns in which assets vary, with gaps, and every covariance matrix with correlations between -1 and 1",
  "all tables and matrices; intermediate value",
  [HP + ":HRPOpt.optimize"])
p("HRP portfolios do not depend on unit, drift or order of observations",
  "HRPOpt.optimize returns the same weights when all returns are multiplied by a nonzero number, when a constant is added to all returns of an asset, and when the observations are listed in another order or under other dates.",
  "every table of returns with any gaps, every clustering",
  "a relation between runs on different tables",
  [HP + ":HRPOpt.optimize", HP + ":HRPOpt._raw_hrp_allocation"])
p("More return costs risk, with diminishing returns",
  "Without additional objectives and up to rounding to 16 decimals: the risk of the portfolios efficient_return returns grows with the target and is a convex function of it; the return of the portfolios efficient_risk returns grows with the target and is a concave function of it; a higher risk aversion in max_quadratic_utility gives neither more risk nor more return. Risk is volatility, CVaR, CDaR or semideviation, according to the class.",
  "every class, data, bounds and convex constraints, every pair of targets, every history of the objects the portfolios come from",
  "a relation between answers to different calls on different objects",
  [EF_ + "efficient_frontier.py:EfficientFrontier.efficient_return", EF_ + "efficient_frontier.py:EfficientFrontier.efficient_risk", EF_ + "efficient_frontier.py:EfficientFrontier.max_quadratic_utility", EF_ + "efficient_cvar.py:EfficientCVaR.efficient_return", EF_ + "efficient_cdar.py:EfficientCDaR.efficient_return", EF_ + "efficient_semivariance.py:EfficientSemivariance.efficient_return"])
p("The methods agree with each other",
  "Without additional objectives and up to rounding: no method returns a portfolio with less risk than min_volatility (min_cvar, min_cdar, min_semivariance), and a target return that this portfolio reaches changes nothing about the risk; efficient_risk at the risk of an efficient_return portfolio returns at least that return, and efficient_return at the return of an efficient_risk portfolio has no more risk; the max_quadratic_utility portfolio lies on the frontier that efficient_return describes; no method returns a portfolio with a higher Sharpe ratio than max_sharpe.",
  "every class, data, bounds and constraints, every target, every history",
  "a relation between answers of different methods",
  [EF_ + "efficient_frontier.py:EfficientFrontier.min_volatility", EF_ + "efficient_frontier.py:EfficientFrontier.max_sharpe", EF_ + "efficient_frontier.py:EfficientFrontier.efficient_risk", EF_ + "efficient_frontier.py:EfficientFrontier.efficient_return", EF_ + "efficient_frontier.py:EfficientFrontier.max_quadratic_utility"])
p("One answer, whatever the solver, history, order of assets and units",
  "For a positive definite covariance, convex constraints and no additional objectives, min_volatility, efficient_return, max_quadratic_utility and max_sharpe of EfficientFrontier each have one answer: two programs, with any solvers and histories, whose inputs differ in the order of the assets, in the unit of the covariances and in the unit of the returns (and of target, risk-free rate and risk aversion accordingly) get the same weight for each asset.",
  "every data, bounds, convex constraints, permutation and positive factors",
  "a relation between runs on different inputs with different solvers",
  [EF_ + "efficient_frontier.py:EfficientFrontier.min_volatility", EF_ + "efficient_frontier.py:EfficientFrontier.efficient_return", EF_ + "efficient_frontier.py:EfficientFrontier.max_quadratic_utility", EF_ + "efficient_frontier.py:EfficientFrontier.max_sharpe"])
p("The report is on the last portfolio, at the rate asked for",
  "EfficientFrontier.portfolio_performance reports on the portfolio shown last - returned by an optimisation or accepted by set_weights - and raises before there is one: its expected return, its volatility and its Sharpe ratio at the risk-free rate given. Without expected returns it reports the volatility alone.",
  "every history of calls, returning or raising, every portfolio, covariance and rate",
  "all histories; the object carries state from call to call",
  [EF_ + "efficient_frontier.py:EfficientFrontier.portfolio_performance", EF_ + "efficient_frontier.py:EfficientFrontier.max_sharpe", "pypfopt/base_optimizer.py:portfolio_performance"])
p("Refused calls change nothing",
  "A method the class does not offer raises, and so does an argument that can never be used - a risk aversion that is not positive, a negative target volatility, a target return that is no number or out of range, a risk-free rate no asset beats, missing expected returns. Such a call leaves the object, its copies and all parameters as they were, so nothing that happens later depends on it.",
  "every class, every state of the object, every such call",
  "all states an object can be in",
  [EF_ + "efficient_frontier.py:EfficientFrontier.max_quadratic_utility", EF_ + "efficient_frontier.py:EfficientFrontier.efficient_risk", EF_ + "efficient_cvar.py:EfficientCVaR.set_weights", EF_ + "efficient_cdar.py:EfficientCDaR.set_weights", EF_ + "efficient_semivariance.py:EfficientSemivariance.min_volatility"])
p("One object, one method; trying another is refused and harmless",
  "Once an object, or the object it was copied from, has returned weights, every call that returns weights later is of the same target method with the same market neutrality, or both were convex_objective; every other optimisation method raises. Such a refused call does not affect the object: the method that worked before still works.",
  "every class, data, history of calls on any number of objects and copies, every solver",
  "all histories",
  ["pypfopt/base_optimizer.py:BaseConvexOptimizer._solve_cvxpy_opt_problem", "pypfopt/base_optimizer.py:BaseConvexOptimizer.is_parameter_defined", EF_ + "efficient_frontier.py:EfficientFrontier.efficient_risk", EF_ + "efficient_frontier.py:EfficientFrontier.min_volatility", EF_ + "efficient_cvar.py:EfficientCVaR.efficient_risk"])
p("nonconvex_objective minimises what was asked, within the bounds of the object",
  "nonconvex_objective has scipy minimise the given function, called with the weights and the entries of the argument tuple, over the weights within the bounds given to the constructor that satisfy the given constraints, the constraints added to the object and, if wanted, sum to one, starting from the given or from equal weights. The point found is returned and becomes the portfolio of the object; if none is found the call raises. Nothing else about the object changes.",
  "every class, objective, arguments, constraints, bounds and history of the object, every behaviour of scipy",
  "all histories of the object; what matters is the request, which the caller does not see",
  ["pypfopt/base_optimizer.py:BaseConvexOptimizer.nonconvex_objective", "pypfopt/base_optimizer.py:BaseConvexOptimizer._map_bounds_to_constraints", EF_ + "efficient_frontier.py:EfficientFrontier._make_weight_sum_constraint"])
p("max_sharpe finds the portfolio of largest Sharpe ratio whenever there is one",
  "As the first optimisation of an object, max_sharpe returns weights exactly if some admissible portfolio beats the risk-free rate and has the largest Sharpe ratio, and then those of such a portfolio. Rates that no portfolio beats are refused: with ValueError if no asset beats them, otherwise with OptimizationError.",
  "every covariance, expected returns, bounds, linear constraints and rate",
  "the optimum of the problem solved is related to the one asked for by a change of variables that must lose no portfolio",
  [EF_ + "efficient_frontier.py:EfficientFrontier.max_sharpe"])
p("Lost price changes are warned about",
  "When a return model is given prices from which some price change is lost because quotes are missing, it warns; without a warning the estimate of every asset rests on all its price changes. Prices missing before an asset is first quoted are no reason for a warning.",
  "every table of positive prices with any pattern of missing quotes",
  "all patterns of missing values",
  ["pypfopt/expected_returns.py:_check_returns", "pypfopt/expected_returns.py:returns_from_prices", "pypfopt/expected_returns.py:mean_historical_return"])
p("Covariance estimates do not depend on units or on how the data are laid out",
  "Given the same complete returns with the assets in another order, in another unit (k units to one) and with a constant added to the returns of each asset, every covariance estimate is the same matrix in the new order of assets, times k squared, and the shrinkage intensity is the same number; the order of the days does not matter. Semicovariance needs a positive unit and its benchmark restated with the returns. Quoting the prices of each asset in a unit of its own changes no estimate.",
  "every complete table of returns or positive prices, every reordering, unit and shift",
  "all tables and all their restatements",
  ["pypfopt/risk_models.py:sample_cov", "pypfopt/risk_models.py:semicovariance", "pypfopt/risk_models.py:exp_cov", "pypfopt/risk_models.py:CovarianceShrinkage.shrunk_covariance", "pypfopt/risk_models.py:CovarianceShrinkage._ledoit_wolf_single_factor", "pypfopt/risk_models.py:CovarianceShrinkage._ledoit_wolf_constant_correlation", "pypfopt/risk_models.py:risk_matrix"])
p("A day on which a return is missing is left out",
  "Where returns are missing, the covariance estimate of two assets is the estimate from the days on which both have a return: a missing return is left out and does not count as a return of some size.",
  "every table of returns with any pattern of missing values",
  "all patterns of missing values",
  ["pypfopt/risk_models.py:sample_cov", "pypfopt/risk_models.py:semicovariance", "pypfopt/risk_models.py:_pair_exp_cov", "pypfopt/risk_models.py:exp_cov", "pypfopt/risk_models.py:CovarianceShrinkage._ledoit_wolf_single_factor"])
p("The Black-Litterman posterior does not depend on how the problem is written down",
  "Stating the same views in another order, multiplying both sides of a view by a number, listing the assets in another order or measuring returns in another unit (u units to one) gives the same posterior: the returns in the new order times u, the covariance matrix in the new order times u squared, and the same weights, whatever the risk aversion. The uncertainty is restated with the views by default and with Idzorek's method.",
  "every covariance, prior, views, reordering, multiples and unit, every history of calls on either model",
  "all problems and all their restatements",
  ["pypfopt/black_litterman.py:BlackLittermanModel.bl_returns", "pypfopt/black_litterman.py:BlackLittermanModel.bl_cov", "pypfopt/black_litterman.py:BlackLittermanModel.bl_weights", "pypfopt/black_litterman.py:BlackLittermanModel.default_omega", "pypfopt/black_litterman.py:BlackLittermanModel.idzorek_method"])
p("A request that can be met is met",
  "As the first optimization of an object of any of the four mean-risk classes, a call returns weights if some portfolio within the bounds and constraints meets the request (a risk of at most the target, a return of at least the target, a return above the risk-free rate); the returned portfolio is, up to rounding, such a portfolio. If none does, the call raises OptimizationError, or ValueError for a target above the largest possible return. The same holds of further targets of the same method on the same object, whatever became of the earlier ones.",
  "every data set, finite bounds, closed constraints on the weights, continuous added objectives and target",
  "all portfolios, data sets and targets",
  ["pypfopt/efficient_frontier/efficient_frontier.py:EfficientFrontier.min_volatility", "pypfopt/efficient_frontier/efficient_frontier.py:EfficientFrontier.max_sharpe", "pypfopt/efficient_frontier/efficient_frontier.py:EfficientFrontier.efficient_risk", "pypfopt/efficient_frontier/efficient_frontier.py:EfficientFrontier.efficient_return", "pypfopt/efficient_frontier/efficient_cvar.py:EfficientCVaR.efficient_risk", "pypfopt/efficient_frontier/efficient_cdar.py:EfficientCDaR.efficient_return", "pypfopt/efficient_frontier/efficient_semivariance.py:EfficientSemivariance.efficient_return", "pypfopt/base_optimizer.py:BaseConvexOptimizer._solve_cvxpy_opt_problem"])
p("tau does not matter where the documentation says so",
  "With the default uncertainty of views or Idzorek's method, the value of tau makes no difference: models that differ only in tau have the same posterior and the same weights.",
  "every covariance, prior, views, confidences, risk aversion and two values of tau, every history of calls on either model",
  "all models, all values of tau",
  ["pypfopt/black_litterman.py:BlackLittermanModel.default_omega", "pypfopt/black_litterman.py:BlackLittermanModel.idzorek_method", "pypfopt/black_litterman.py:BlackLittermanModel.bl_returns", "pypfopt/black_litterman.py:BlackLittermanModel.bl_cov", "pypfopt/black_litterman.py:BlackLittermanModel.bl_weights"])
p("The posterior is an average of prior and views, weighted by confidence",
  "The posterior returns are closer to prior and views together than any other returns, distances being measured by tau times the covariance and by the uncertainty of the views; they fit the views at least as well as the prior. The return of the portfolio a single view, or one of several uncorrelated views, is about is the average of prior and view weighted with the variance of the prior and the uncertainty: with Idzorek's method it moves from the prior the fraction of the way to the view that is the confidence, by default half the way. More certainty about one of any views never makes the posterior miss it by more.",
  "every covariance, prior, views, uncertainties and confidences, every history of calls",
  "all return vectors, all models",
  ["pypfopt/black_litterman.py:BlackLittermanModel.bl_returns", "pypfopt/black_litterman.py:BlackLittermanModel.default_omega", "pypfopt/black_litterman.py:BlackLittermanModel.idzorek_method"])
p("Views only reduce the posterior covariance, and can be worked in one after another",
  "A model with further views, or with the same views held with more certainty, has a posterior covariance that is not larger for any portfolio, whatever the views say. Views that err independently can be worked in in batches: the model whose prior is the posterior of the first batch, with what the posterior covariance adds to the covariance in place of tau times the covariance, has the posterior of the model with all views.",
  "every covariance, prior, views and uncertainties, every way of splitting the views, every history of calls",
  "all models and all splits of their views",
  ["pypfopt/black_litterman.py:BlackLittermanModel.bl_cov", "pypfopt/black_litterman.py:BlackLittermanModel.bl_returns"])
p("Charts show the data they are given",
  "plot_weights shows every ticker with its weight and nothing else, the heaviest on top, equal ones in the order of the portfolio. plot_covariance shows at row i and column j the covariance (or correlation) of the assets named beside the row and below the column. plot_dendrogram shows each asset once under its own name, in the order the weights come from, and leaves an optimised object as it is. The assets in the plot of a frontier stand at their risk and expected return. If a filename is given, the chart and nothing else is saved.",
  "every portfolio, covariance, HRP object with any history of calls, figure, axes and keywords",
  "all portfolios, matrices and histories",
  ["pypfopt/plotting.py:plot_weights", "pypfopt/plotting.py:plot_covariance", "pypfopt/plotting.py:plot_dendrogram", "pypfopt/plotting.py:plot_efficient_frontier", "pypfopt/plotting.py:_plot_io"])
p("A parameter is found wherever it stands",
  "is_parameter_defined returns True if a parameter of that name stands at exactly one place, however deep, in the constraints and the objective, False if at none, and raises InstantiationError otherwise. update_parameter_value then gives this parameter the value and changes no other; if it raises, nothing has changed.",
  "every expression tree of any depth and width, every object, name and value",
  "expression trees of any size",
  ["pypfopt/base_optimizer.py:BaseConvexOptimizer.is_parameter_defined", "pypfopt/base_optimizer.py:BaseConvexOptimizer.update_parameter_value", "pypfopt/base_optimizer.py:_get_all_args", "pypfopt/base_optimizer.py:_flatten"])
p("Turning points of CLA are optimal",
  "Every turning point CLA keeps is optimal for its multiplier among all portfolios within the bounds: none has at least its return with less variance. The first has the largest return, and no portfolio within the bounds has less variance than the answer of min_volatility. If no asset is bound on the way, every point of efficient_frontier is efficient.",
  "every expected returns, positive definite covariance, bounds per asset and number of assets, every portfolio within the bounds, every run that finishes",
  "all portfolios within the bounds, problems of any size, runs of any length",
  ["pypfopt/cla.py:CLA._solve", "pypfopt/cla.py:CLA._get_matrices", "pypfopt/cla.py:CLA.min_volatility", "pypfopt/cla.py:CLA.efficient_frontier"])
p("CLA always finds the portfolio of least variance",
  "min_volatility of a CLA object answers after finitely many iterations, and no portfolio within the bounds has less variance than its answer.",
  "every expected returns, positive definite covariance, bounds per asset that allow a portfolio, and number of assets",
  "termination of a loop without a bound, for problems of any size",
  ["pypfopt/cla.py:CLA._solve", "pypfopt/cla.py:CLA._compute_lambda", "pypfopt/cla.py:CLA._compute_w", "pypfopt/cla.py:CLA.min_volatility"])
p("The robust covariance is that of some of the complete days",
  "min_cov_determinant returns the yearly covariance of some of the days on which every asset has a return, labelled by the columns and positive semidefinite. In a frame of returns the days with a missing return do not matter, nor in complete positive prices the unit in which an asset is quoted; with fewer than two complete days there is a ValueError.",
  "every frame of prices or returns, seed, nonnegative frequency and repair method",
  "frames of any size with gaps anywhere, every answer the randomised library may give",
  ["pypfopt/risk_models.py:min_cov_determinant", "pypfopt/risk_models.py:fix_nonpositive_semidefinite"])
p("Whole-share allocation with shorts is best on each side",
  "When lp_portfolio returns for a portfolio with short positions, share counts have the sign of their weights, the shares bought and the shares sold short each cost at most their own budget (total and total*short_ratio, plus reinvested shorts if asked), the leftover is exactly what both leave, and on neither side is any affordable whole-share portfolio closer to its targets. The order of the prices does not matter.",
  "every portfolio with at least one short, every list of prices in any order, both settings of reinvest, every optimal solver answer",
  "all whole-share portfolios on either side, universes of any size",
  ["pypfopt/discrete_allocation.py:DiscreteAllocation.lp_portfolio"])
