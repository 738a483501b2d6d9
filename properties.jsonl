{"id": "C01", "title": "Greedy allocation balances the books", "statement": "For a long-only portfolio, DiscreteAllocation.greedy_portfolio returns whole non-negative share counts and a leftover >= 0 such that leftover + sum over tickers of shares*price is exactly total_portfolio_value.", "quantifier": "every list of tickers, every non-negative weight vector of sum <= 1, every positive price vector, every positive total value", "why_tests_cant": "the identity must survive an unbounded number of one-share purchases for every weight/price vector; tests sample a handful of portfolios", "anchors": ["pypfopt/discrete_allocation.py:DiscreteAllocation.greedy_portfolio", "pypfopt/discrete_allocation.py:DiscreteAllocation._remove_zero_positions"]}
{"id": "C02", "title": "Greedy allocation always terminates and never trips its own assertion", "statement": "greedy_portfolio finishes for every portfolio with positive prices (long-only or long/short), and with non-negative weights of sum <= 1 the 'Unexpectedly insufficient funds' assertion is never raised.", "quantifier": "every weight vector, every positive price vector, every positive total value", "why_tests_cant": "termination is a statement about the absence of infinite runs; a test can only observe runs that end", "anchors": ["pypfopt/discrete_allocation.py:DiscreteAllocation.greedy_portfolio"]}
{"id": "C03", "title": "Greedy allocation never buys less than the rounded-down target", "statement": "In a long-only greedy allocation every asset ends with at least floor(weight*total/price) shares, the result mentions only input tickers, and it lists exactly the tickers with a non-zero share count.", "quantifier": "every long-only portfolio", "why_tests_cant": "the second buying round runs an unbounded number of times and may touch any asset in any order", "anchors": ["pypfopt/discrete_allocation.py:DiscreteAllocation.greedy_portfolio", "pypfopt/discrete_allocation.py:DiscreteAllocation._remove_zero_positions"]}
{"id": "C04", "title": "Greedy allocation only stops when nothing useful is affordable", "statement": "When greedy_portfolio returns, every asset whose price is at most the leftover cash already holds at least its desired fraction of the invested value (no affordable under-weight asset is left).", "quantifier": "every long-only portfolio of any size", "why_tests_cant": "the stopping rule contains a hard-coded retry counter; whether it can fire early depends on the number of unaffordable assets, which tests do not explore", "anchors": ["pypfopt/discrete_allocation.py:DiscreteAllocation.greedy_portfolio"]}
{"id": "C05", "title": "Greedy long/short allocation splits value correctly", "statement": "With short positions, greedy_portfolio gives positive counts only to assets of weight >= 0 and negative counts only to assets of weight < 0; long value + |short value| + leftover equals the long budget plus the short budget (total and total*short_ratio, plus reinvested shorts if asked), and each side stays within its own budget.", "quantifier": "every portfolio with at least one short and one positive long, every short ratio > 0, both settings of reinvest", "why_tests_cant": "combines two unbounded greedy runs over arbitrary sub-portfolios", "anchors": ["pypfopt/discrete_allocation.py:DiscreteAllocation.greedy_portfolio", "pypfopt/discrete_allocation.py:DiscreteAllocation.__init__"]}
{"id": "C06", "title": "Linear-programming allocation is the best whole-share portfolio", "statement": "If the integer solver reports an optimum, lp_portfolio returns whole non-negative shares costing at most total_portfolio_value, the leftover is exactly the unspent cash, and no other affordable whole-share portfolio has a smaller sum of absolute deviations from the target dollar amounts plus leftover.", "quantifier": "every long-only portfolio whose price series is listed in the same order as the weights, every optimal solver answer", "why_tests_cant": "optimality quantifies over all integer portfolios", "anchors": ["pypfopt/discrete_allocation.py:DiscreteAllocation.lp_portfolio"]}
{"id": "C07", "title": "Allocation depends on the data, not on its order or on earlier calls", "statement": "lp_portfolio pairs each ticker's weight with that ticker's price whatever the order of the price series and whatever allocation methods were called before on the same object.", "quantifier": "every ordering of latest_prices, every history of allocation calls on the object", "why_tests_cant": "tests always pass prices and weights in the same column order and use a fresh object per call", "anchors": ["pypfopt/discrete_allocation.py:DiscreteAllocation.lp_portfolio", "pypfopt/discrete_allocation.py:DiscreteAllocation.greedy_portfolio"]}
{"id": "C08", "title": "Allocation input validation", "statement": "DiscreteAllocation accepts exactly dict weights without NaN, a NaN-free price series, a positive total value and a non-negative (or absent) short ratio, reports the documented exception otherwise, and every accepted long/short input can be allocated with every accepted short ratio.", "quantifier": "every constructor argument combination", "why_tests_cant": "the failure only shows up for a combination of an accepted ratio and a later method call", "anchors": ["pypfopt/discrete_allocation.py:DiscreteAllocation.__init__", "pypfopt/discrete_allocation.py:DiscreteAllocation.greedy_portfolio"]}
{"id": "C09", "title": "Weights survive the dict/array round trip", "statement": "For an optimizer with distinct tickers, set_weights followed by reading the weights back as a dict returns the same ticker->weight mapping in ticker order; extra keys are ignored; a missing ticker raises and leaves the stored weights unchanged.", "quantifier": "every ticker list, every input mapping", "why_tests_cant": "quantifies over all key sets and orders", "anchors": ["pypfopt/base_optimizer.py:BaseOptimizer.set_weights", "pypfopt/base_optimizer.py:BaseOptimizer._make_output_weights"]}
{"id": "C10", "title": "clean_weights only rounds and zeroes", "statement": "clean_weights never changes the stored weights, keeps ticker order, sends each weight w to 0 when |w| < cutoff and otherwise to the multiple of 10^-rounding closest to w (error at most half a unit), never flips a sign, and cleaning the cleaned weights changes nothing more when the cutoff is itself a multiple of 10^-rounding; invalid rounding raises.", "quantifier": "every weight vector, every cutoff >= 0, every rounding digit count >= 1 or None", "why_tests_cant": "idempotence and error bounds are universally quantified over real weights", "anchors": ["pypfopt/base_optimizer.py:BaseOptimizer.clean_weights"]}
{"id": "C11", "title": "Saving weights is all-or-nothing on the file extension", "statement": "save_weights_to_file writes the cleaned weights in the format selected by the case-insensitive text after the last dot, and for any other extension raises and writes no file.", "quantifier": "every file name, every optimizer state", "why_tests_cant": "all strings", "anchors": ["pypfopt/base_optimizer.py:BaseOptimizer.save_weights_to_file"]}
{"id": "C12", "title": "Weight bounds mean the same in every accepted spelling", "statement": "A single (low, high) pair, a per-asset list of pairs and a pair of arrays describing the same bounds admit exactly the same weight vectors; None means the documented default; malformed bounds raise TypeError.", "quantifier": "every number of assets, every bound value and spelling", "why_tests_cant": "spelling is disambiguated by length, so it can only go wrong at particular asset counts", "anchors": ["pypfopt/base_optimizer.py:BaseConvexOptimizer._map_bounds_to_constraints", "pypfopt/cla.py:CLA.__init__"]}
{"id": "C13", "title": "Reported performance is consistent and order-independent", "statement": "portfolio_performance returns (w.mu, sqrt(w'Sw), (w.mu-rf)/sqrt(w'Sw)); with dict weights the result does not depend on dict order, missing tickers count as zero and unknown tickers are ignored; a None or all-zero-sum dict raises ValueError.", "quantifier": "every weight vector/dict, expected return vector, covariance, risk-free rate", "why_tests_cant": "order independence over all permutations", "anchors": ["pypfopt/base_optimizer.py:portfolio_performance", "pypfopt/objective_functions.py:sharpe_ratio", "pypfopt/objective_functions.py:portfolio_variance", "pypfopt/objective_functions.py:portfolio_return"]}
{"id": "C14", "title": "HRP weights form a long-only fully invested portfolio", "statement": "HRPOpt.optimize returns exactly one weight per ticker, every weight strictly between 0 and 1 (equal to 1 for a single asset) and weights summing to exactly 1.", "quantifier": "every number of assets, every positive definite covariance (or any with positive cluster variances), every leaf order produced by the clustering", "why_tests_cant": "recursive bisection of unbounded depth over arbitrary matrices", "anchors": ["pypfopt/hierarchical_portfolio.py:HRPOpt._raw_hrp_allocation", "pypfopt/hierarchical_portfolio.py:HRPOpt.optimize", "pypfopt/hierarchical_portfolio.py:HRPOpt._get_cluster_var"]}
{"id": "C15", "title": "HRP balances risk at every split", "statement": "At every bisection the total weights of the two halves are inversely proportional to the inverse-variance cluster variances of the halves.", "quantifier": "every covariance with positive cluster variances, every leaf order, every split of the tree", "why_tests_cant": "all nodes of a tree of unbounded size", "anchors": ["pypfopt/hierarchical_portfolio.py:HRPOpt._raw_hrp_allocation", "pypfopt/hierarchical_portfolio.py:HRPOpt._get_cluster_var"]}
{"id": "C16", "title": "HRP does not depend on the unit of covariance", "statement": "Multiplying the covariance by any positive constant (e.g. annualising it) leaves the HRP weights unchanged.", "quantifier": "every covariance, every scale > 0", "why_tests_cant": "an invariance over all reals", "anchors": ["pypfopt/hierarchical_portfolio.py:HRPOpt._raw_hrp_allocation"]}
{"id": "C17", "title": "CLA starts from the feasible portfolio of maximum return", "statement": "When lower bounds sum to less than 1 and upper bounds to at least 1, the first turning point is within bounds, sums to 1, has at most one weight strictly between its bounds, and no feasible portfolio has a higher expected return; otherwise an IndexError is raised rather than a wrong answer.", "quantifier": "every mean vector, every bound vectors with lower <= upper", "why_tests_cant": "optimality over all feasible portfolios", "anchors": ["pypfopt/cla.py:CLA._init_algo"]}
{"id": "C18", "title": "CLA purging keeps only valid, return-ordered turning points", "statement": "After solving, every stored turning point sums to 1 and respects the bounds within 1e-9; the four result lists stay aligned; the purging loops terminate; apart from the first, turning points are in non-increasing order of return.", "quantifier": "every list of candidate turning points", "why_tests_cant": "in-place deletion while iterating over lists of any length", "anchors": ["pypfopt/cla.py:CLA._purge_num_err", "pypfopt/cla.py:CLA._purge_excess"]}
{"id": "C19", "title": "CLA results are feasible portfolios", "statement": "The portfolios returned by CLA.max_sharpe, min_volatility and every point of efficient_frontier are convex combinations of adjacent turning points, hence sum to 1 and respect the bounds within the purge tolerance.", "quantifier": "every objective shape, every list of turning points, every number of frontier points", "why_tests_cant": "the line search runs a data-dependent number of iterations with an approximate golden ratio", "anchors": ["pypfopt/cla.py:CLA._golden_section", "pypfopt/cla.py:CLA.max_sharpe", "pypfopt/cla.py:CLA.efficient_frontier", "pypfopt/cla.py:CLA.min_volatility"]}
{"id": "C20", "title": "CLA solves each sub-problem exactly", "statement": "For a given split into free and bound assets and a given return multiplier, the free weights CLA computes are those of the unique portfolio minimising half variance minus multiplier times return among portfolios that agree with the bound weights and sum to 1; and the multiplier it computes for an asset is exactly the one at which that asset's weight hits the given bound.", "quantifier": "every positive definite covariance, every free set, every multiplier", "why_tests_cant": "linear algebra identity over all matrices", "anchors": ["pypfopt/cla.py:CLA._compute_w", "pypfopt/cla.py:CLA._compute_lambda"]}
{"id": "C21", "title": "CLA.min_volatility returns the least volatile stored portfolio", "statement": "The portfolio returned by CLA.min_volatility has variance no larger than any other turning point, and if the last turning point is in the list and satisfies the first-order conditions, no larger than any feasible portfolio.", "quantifier": "every list of turning points, every positive semidefinite covariance", "why_tests_cant": "global optimality over a continuum", "anchors": ["pypfopt/cla.py:CLA.min_volatility", "pypfopt/cla.py:CLA._solve"]}
{"id": "C22", "title": "Black-Litterman posterior returns satisfy the master formula", "statement": "bl_returns equals [(tau S)^-1 + P' O^-1 P]^-1 [(tau S)^-1 pi + P' O^-1 Q] whenever the inverses exist, and calling it repeatedly returns the same vector.", "quantifier": "every number of assets and views, every positive definite S and O, every P, Q, pi, tau in (0,1]", "why_tests_cant": "matrix identity over all dimensions", "anchors": ["pypfopt/black_litterman.py:BlackLittermanModel.bl_returns"]}
{"id": "C23", "title": "Black-Litterman posterior covariance is a valid covariance", "statement": "bl_cov equals S + [(tau S)^-1 + P' O^-1 P]^-1, is symmetric positive definite, and lies between S and (1+tau) S.", "quantifier": "every number of assets and views, every positive definite S and O", "why_tests_cant": "matrix inequality over all dimensions", "anchors": ["pypfopt/black_litterman.py:BlackLittermanModel.bl_cov"]}
{"id": "C24", "title": "Views that agree with the prior change nothing; certain views are honoured", "statement": "If Q = P pi the posterior returns equal the prior; if the view uncertainty is zero the posterior satisfies every view exactly (P posterior = Q).", "quantifier": "every positive definite covariance, every prior, every views matrix (certain views jointly satisfiable)", "why_tests_cant": "for all inputs", "anchors": ["pypfopt/black_litterman.py:BlackLittermanModel.bl_returns", "pypfopt/black_litterman.py:BlackLittermanModel.idzorek_method"]}
{"id": "C25", "title": "Implied Black-Litterman weights sum to one and solve the right system", "statement": "bl_weights returns weights that sum to exactly 1 and are proportional to S^-1 times the posterior returns; they do not depend on the risk_aversion argument; when S is singular the fallback still solves a system with S.", "quantifier": "every posterior, every risk aversion > 0, singular or not", "why_tests_cant": "the singular branch is never reached by tests; invariance is over all reals", "anchors": ["pypfopt/black_litterman.py:BlackLittermanModel.bl_weights"]}
{"id": "C26", "title": "View uncertainty matrices are valid", "statement": "default_omega and idzorek_method return a KxK diagonal matrix with non-negative entries; Idzorek entries are tau*((1-c)/c)*p S p' (0 at full confidence, 1e6 at zero confidence), never increase with confidence, and any confidence outside [0,1] raises ValueError.", "quantifier": "every number of views, every confidence vector, every positive semidefinite S", "why_tests_cant": "for all confidences and matrices", "anchors": ["pypfopt/black_litterman.py:BlackLittermanModel.default_omega", "pypfopt/black_litterman.py:BlackLittermanModel.idzorek_method"]}
{"id": "C27", "title": "Absolute views are placed on the right assets", "statement": "Given a dict of absolute views on distinct known tickers, row i of P picks exactly the i-th viewed asset and Q holds its view, so P r lists the returns of the viewed assets; a view on an unknown ticker raises ValueError.", "quantifier": "every ticker list, every view mapping", "why_tests_cant": "for all key sets", "anchors": ["pypfopt/black_litterman.py:BlackLittermanModel._parse_views"]}
{"id": "C28", "title": "Market-implied prior inverts to the market portfolio", "statement": "market_implied_prior_returns is unchanged when all market caps are multiplied by a positive constant, and with zero risk-free rate and views consistent with the prior, bl_weights returns exactly the market-cap weights.", "quantifier": "every cap vector with non-zero sum, every invertible covariance", "why_tests_cant": "composition of two modules for all inputs", "anchors": ["pypfopt/black_litterman.py:market_implied_prior_returns", "pypfopt/black_litterman.py:BlackLittermanModel.bl_weights"]}
{"id": "C29", "title": "Prices and returns are inverse up to the first period", "statement": "returns_from_prices(prices_from_returns(r)) gives back r without its first row, prices_from_returns(returns_from_prices(p)) gives p rescaled to start at 1 from its second row, for both simple and log returns, and neither call changes its argument.", "quantifier": "every series of complete positive prices, or of complete returns above -1, of any length", "why_tests_cant": "for all series", "anchors": ["pypfopt/expected_returns.py:returns_from_prices", "pypfopt/expected_returns.py:prices_from_returns"]}
{"id": "C30", "title": "Compounded mean return is the CAGR of first and last price", "statement": "For complete positive prices, mean_historical_return with compounding equals (last/first)^(frequency/periods) - 1 whatever happened in between, and no return estimate changes when an asset's prices are multiplied by a positive constant.", "quantifier": "every positive price series, every frequency", "why_tests_cant": "telescoping over any number of periods", "anchors": ["pypfopt/expected_returns.py:mean_historical_return", "pypfopt/expected_returns.py:ema_historical_return", "pypfopt/expected_returns.py:returns_from_prices"]}
{"id": "C31", "title": "Exponential averages are true averages", "statement": "The exponentially weighted mean used by ema_historical_return and exp_cov is a convex combination of the observations with positive weights that strictly increase towards the most recent when span > 1 (span = 1 keeps only the last observation), so it lies between the smallest and largest observation.", "quantifier": "every series, every span >= 1", "why_tests_cant": "for all lengths and spans", "anchors": ["pypfopt/expected_returns.py:ema_historical_return", "pypfopt/risk_models.py:_pair_exp_cov"]}
{"id": "C32", "title": "CAPM estimates average to the market", "statement": "With the default equal-weighted market proxy the betas average to exactly 1, so the mean CAPM return over assets equals the market return; estimates lie on the security market line.", "quantifier": "every complete return matrix with a non-constant average", "why_tests_cant": "identity over all matrices", "anchors": ["pypfopt/expected_returns.py:capm_return"]}
{"id": "C33", "title": "Return estimation does not modify the caller's data", "statement": "capm_return leaves every data frame passed by the caller unchanged.", "quantifier": "every combination of arguments", "why_tests_cant": "aliasing depends on the argument combination", "anchors": ["pypfopt/expected_returns.py:capm_return"]}
{"id": "C34", "title": "fix_nonpositive_semidefinite returns a covariance", "statement": "For a symmetric input and either fix method the result is symmetric and positive semidefinite (up to the 1e-16 test tolerance), is the input itself when that already passes the test, and an unknown method is rejected with NotImplementedError.", "quantifier": "every symmetric matrix of any size", "why_tests_cant": "spectral statement over all matrices", "anchors": ["pypfopt/risk_models.py:fix_nonpositive_semidefinite", "pypfopt/risk_models.py:_is_positive_semidefinite"]}
{"id": "C35", "title": "Covariance estimators are symmetric positive semidefinite", "statement": "On complete data sample_cov, semicovariance and exp_cov return symmetric positive semidefinite matrices that are returned unfixed, with the documented entries, linear in frequency.", "quantifier": "every complete return matrix, every span, benchmark and frequency >= 0", "why_tests_cant": "for all data sizes", "anchors": ["pypfopt/risk_models.py:sample_cov", "pypfopt/risk_models.py:semicovariance", "pypfopt/risk_models.py:exp_cov", "pypfopt/risk_models.py:_pair_exp_cov"]}
{"id": "C36", "title": "Covariance and correlation conversions are inverse", "statement": "cov_to_corr returns unit diagonal and entries in [-1,1]; corr_to_cov(cov_to_corr(S), sqrt(diag S)) = S and cov_to_corr(corr_to_cov(R, s)) = R for positive s.", "quantifier": "every positive semidefinite covariance with positive diagonal, every correlation matrix", "why_tests_cant": "for all matrices", "anchors": ["pypfopt/risk_models.py:cov_to_corr", "pypfopt/risk_models.py:corr_to_cov"]}
{"id": "C37", "title": "Shrinkage is a convex combination that keeps total variance", "statement": "Ledoit-Wolf single-factor and constant-correlation shrinkage use an intensity in [0,1] and leave every asset's variance unchanged; manual shrinkage keeps the trace; results are positive semidefinite for a positive semidefinite target, and with two assets constant-correlation shrinkage returns the sample covariance.", "quantifier": "every return matrix", "why_tests_cant": "for all data, including degenerate data", "anchors": ["pypfopt/risk_models.py:CovarianceShrinkage.shrunk_covariance", "pypfopt/risk_models.py:CovarianceShrinkage._ledoit_wolf_single_factor", "pypfopt/risk_models.py:CovarianceShrinkage._ledoit_wolf_constant_correlation"]}
{"id": "C38", "title": "Objective functions compute their documented formulas", "statement": "Each objective is the documented formula, the negative flag flips exactly the sign, penalties are non-negative and vanish exactly at zero weights / unchanged weights / benchmark weights, and the variance, tracking-error, L2 and transaction-cost objectives are convex in the weights.", "quantifier": "every weight vector and parameters", "why_tests_cant": "convexity quantifies over all pairs of portfolios", "anchors": ["pypfopt/objective_functions.py:portfolio_variance", "pypfopt/objective_functions.py:portfolio_return", "pypfopt/objective_functions.py:quadratic_utility", "pypfopt/objective_functions.py:L2_reg", "pypfopt/objective_functions.py:transaction_cost", "pypfopt/objective_functions.py:ex_ante_tracking_error", "pypfopt/objective_functions.py:ex_post_tracking_error"]}
{"id": "C39", "title": "A solved optimizer never silently solves a different problem", "statement": "For every history of calls on one EfficientFrontier object, if an optimisation method returns weights then they come from solving exactly the problem that method documents: its objective plus the added objectives, the weight bounds, the added constraints, its target at the value passed in this call, and the right weight sum.", "quantifier": "every finite sequence of method calls with any arguments, with any solver answers, including failing calls", "why_tests_cant": "histories are unbounded; tests try a few two-call sequences", "anchors": ["pypfopt/base_optimizer.py:BaseConvexOptimizer._solve_cvxpy_opt_problem", "pypfopt/base_optimizer.py:BaseConvexOptimizer.add_constraint", "pypfopt/base_optimizer.py:BaseConvexOptimizer.add_objective", "pypfopt/base_optimizer.py:BaseConvexOptimizer.update_parameter_value", "pypfopt/efficient_frontier/efficient_frontier.py:EfficientFrontier"]}
{"id": "C40", "title": "Adding to a solved problem is refused and harmless", "statement": "Once an optimisation has been attempted, add_objective, add_constraint and add_sector_constraints with at least one entry raise InstantiationError and leave the object unchanged, for ever.", "quantifier": "every history", "why_tests_cant": "unbounded histories", "anchors": ["pypfopt/base_optimizer.py:BaseConvexOptimizer.add_objective", "pypfopt/base_optimizer.py:BaseConvexOptimizer.add_constraint"]}
{"id": "C41", "title": "Re-solving with a new target equals a fresh optimizer", "statement": "Calling the same target method repeatedly with new targets on one object passes to the solver the same problem as a fresh object configured identically would, for every sequence of targets, and changing market neutrality between calls raises InstantiationError.", "quantifier": "every sequence of targets, every configuration", "why_tests_cant": "unbounded sequences", "anchors": ["pypfopt/efficient_frontier/efficient_frontier.py:EfficientFrontier.efficient_risk", "pypfopt/efficient_frontier/efficient_frontier.py:EfficientFrontier.efficient_return", "pypfopt/efficient_frontier/efficient_frontier.py:EfficientFrontier.max_quadratic_utility", "pypfopt/base_optimizer.py:BaseConvexOptimizer.is_parameter_defined"]}
{"id": "C42", "title": "Returned portfolios satisfy what was asked", "statement": "If the solver reports an optimum, weights returned by min_volatility, max_quadratic_utility, efficient_risk and efficient_return lie within the bounds, satisfy all added constraints, sum to 1 (or 0 if market neutral), meet the target (volatility at most / return at least), and no portfolio meeting the same requirements has a better objective.", "quantifier": "every problem data, every optimal solver answer", "why_tests_cant": "optimality over a continuum of portfolios", "anchors": ["pypfopt/efficient_frontier/efficient_frontier.py:EfficientFrontier.min_volatility", "pypfopt/efficient_frontier/efficient_frontier.py:EfficientFrontier.max_quadratic_utility", "pypfopt/efficient_frontier/efficient_frontier.py:EfficientFrontier.efficient_risk", "pypfopt/efficient_frontier/efficient_frontier.py:EfficientFrontier.efficient_return"]}
{"id": "C43", "title": "max_sharpe maximises the Sharpe ratio", "statement": "If the solver reports an optimum of the transformed problem, the returned weights satisfy the bounds and every added constraint, sum to 1, and no feasible portfolio has a higher Sharpe ratio.", "quantifier": "every expected return vector, covariance, risk-free rate, bounds, and every added linear/convex constraint", "why_tests_cant": "the change of variables must be right for every constraint a user may add", "anchors": ["pypfopt/efficient_frontier/efficient_frontier.py:EfficientFrontier.max_sharpe"]}
{"id": "C44", "title": "Target-volatility check never rejects an achievable target", "statement": "efficient_risk raises the 'minimum volatility' error only for targets below the volatility of every fully invested portfolio (or every market-neutral one when market_neutral is set).", "quantifier": "every positive semidefinite covariance, every target, both neutrality settings", "why_tests_cant": "for all covariance matrices including singular ones", "anchors": ["pypfopt/efficient_frontier/efficient_frontier.py:EfficientFrontier.efficient_risk"]}
{"id": "C45", "title": "Target-return check never rejects an achievable target", "statement": "efficient_return raises the 'maximum possible return' error only for targets exceeding the return of every portfolio satisfying the bounds, added constraints and requested weight sum.", "quantifier": "every problem data, both neutrality settings, every history", "why_tests_cant": "for all data", "anchors": ["pypfopt/efficient_frontier/efficient_frontier.py:EfficientFrontier.efficient_return", "pypfopt/efficient_frontier/efficient_frontier.py:EfficientFrontier._max_return"]}
{"id": "C46", "title": "Mean-CVaR optimisation measures the true tail loss", "statement": "For EfficientCVaR, min_cvar and efficient_return return a portfolio of least conditional value at risk among admissible ones and report exactly its CVaR (the mean of the worst (1-beta) share of losses); efficient_risk returns a portfolio whose true CVaR is at most the reported value, which is at most the target.", "quantifier": "every return history of any length, every beta in [0,1), every optimal solver answer", "why_tests_cant": "optimality over all portfolios, all histories", "anchors": ["pypfopt/efficient_frontier/efficient_cvar.py:EfficientCVaR.min_cvar", "pypfopt/efficient_frontier/efficient_cvar.py:EfficientCVaR.efficient_return", "pypfopt/efficient_frontier/efficient_cvar.py:EfficientCVaR.efficient_risk", "pypfopt/efficient_frontier/efficient_cvar.py:EfficientCVaR.portfolio_performance"]}
{"id": "C47", "title": "Mean-CDaR optimisation measures the true drawdown", "statement": "For EfficientCDaR, min_cdar and efficient_return return a portfolio of least conditional drawdown at risk (CVaR of the drawdown path of cumulative uncompounded returns starting at 0) and report exactly that value; efficient_risk's reported value bounds the true one and is at most the target.", "quantifier": "every return history of any length, every beta in [0,1)", "why_tests_cant": "drawdown is defined by an unbounded recursion over time", "anchors": ["pypfopt/efficient_frontier/efficient_cdar.py:EfficientCDaR.min_cdar", "pypfopt/efficient_frontier/efficient_cdar.py:EfficientCDaR._add_cdar_constraints", "pypfopt/efficient_frontier/efficient_cdar.py:EfficientCDaR.efficient_risk", "pypfopt/efficient_frontier/efficient_cdar.py:EfficientCDaR.portfolio_performance"]}
{"id": "C48", "title": "Mean-semivariance optimisation measures the reported downside risk", "statement": "For EfficientSemivariance, min_semivariance and efficient_return minimise, and efficient_risk bounds by the target, exactly the semideviation that portfolio_performance reports, for normal and market-neutral portfolios.", "quantifier": "every return history, benchmark, frequency, neutrality setting", "why_tests_cant": "depends on the combination of benchmark and neutrality", "anchors": ["pypfopt/efficient_frontier/efficient_semivariance.py:EfficientSemivariance.min_semivariance", "pypfopt/efficient_frontier/efficient_semivariance.py:EfficientSemivariance.efficient_risk", "pypfopt/efficient_frontier/efficient_semivariance.py:EfficientSemivariance.portfolio_performance"]}
{"id": "C49", "title": "Sector constraints bound exactly the named sectors", "statement": "After add_sector_constraints, a weight vector is admissible iff it was before and, for every sector listed, the sum of weights of the tickers mapped to that sector is at most / at least the given bound; tickers without a sector are unaffected.", "quantifier": "every ticker list, sector mapping and bounds", "why_tests_cant": "closures created in a loop; all mappings", "anchors": ["pypfopt/base_optimizer.py:BaseConvexOptimizer.add_sector_constraints"]}
{"id": "C50", "title": "Market neutrality replaces the bounds and nothing else", "statement": "Asking for a market-neutral portfolio with long-only bounds replaces exactly the weight bounds by (-1,1) and keeps every constraint the user added; with some negative lower bound it keeps the user's bounds.", "quantifier": "every list of added constraints, every bounds", "why_tests_cant": "positional deletion from a list whose content depends on the history", "anchors": ["pypfopt/efficient_frontier/efficient_frontier.py:EfficientFrontier._make_weight_sum_constraint"]}
{"id": "C51", "title": "Plotted frontier points correspond to solved portfolios", "statement": "plot_efficient_frontier draws, for each parameter value whose optimisation succeeds, the return and risk of that portfolio, and draws nothing for values whose optimisation fails.", "quantifier": "every parameter range, every pattern of successes and failures", "why_tests_cant": "all success/failure patterns", "anchors": ["pypfopt/plotting.py:_plot_ef", "pypfopt/plotting.py:plot_efficient_frontier"]}
{"id": "C52", "title": "Method selectors dispatch to the named estimator", "statement": "return_model and risk_matrix run exactly the estimator named by the method string and raise NotImplementedError for every other string.", "quantifier": "every string", "why_tests_cant": "all strings", "anchors": ["pypfopt/expected_returns.py:return_model", "pypfopt/risk_models.py:risk_matrix"]}
{"id": "C53", "title": "CLA frontier points are efficient", "statement": "No point of CLA.efficient_frontier is dominated: no portfolio within the bounds has at least its expected return and strictly smaller variance.", "quantifier": "every mean vector with distinct entries, every positive definite covariance, every bounds", "why_tests_cant": "optimality over a continuum, at every turning point", "anchors": ["pypfopt/cla.py:CLA._solve", "pypfopt/cla.py:CLA._get_matrices", "pypfopt/cla.py:CLA.efficient_frontier"]}
{"id": "C54", "title": "CLA.max_sharpe maximises the Sharpe ratio", "statement": "No portfolio within the bounds has a Sharpe ratio above that of CLA.max_sharpe's answer by more than the accuracy of its line search.", "quantifier": "every mean vector with distinct entries, every positive definite covariance, every bounds", "why_tests_cant": "global optimality over a continuum", "anchors": ["pypfopt/cla.py:CLA.max_sharpe", "pypfopt/cla.py:CLA._solve"]}
{"id": "C55", "title": "A failed CLA solve is not mistaken for a solution", "statement": "If a CLA call raises while solving, a later call on the same object raises again or returns a correct answer; it never returns from partial results.", "quantifier": "every sequence of calls", "why_tests_cant": "needs a failing call followed by another", "anchors": ["pypfopt/cla.py:CLA._solve", "pypfopt/cla.py:CLA.min_volatility", "pypfopt/cla.py:CLA.max_sharpe"]}
{"id": "C56", "title": "CLA does not depend on the spelling of the bounds", "statement": "The same numeric bounds given as one pair, as a list of pairs, or as a pair of arrays, with integers or floats, give the same CLA results.", "quantifier": "every bounds spelling", "why_tests_cant": "all spellings and number types", "anchors": ["pypfopt/cla.py:CLA.__init__", "pypfopt/cla.py:CLA._init_algo"]}
{"id": "C57", "title": "An accepted Black-Litterman model is well formed", "statement": "Whatever the arguments, if the constructor succeeds then risk aversion is positive, tau is in (0, 1], prior and views have matching dimensions, and an uncertainty matrix computed by the library is diagonal with non-negative entries; non-positive risk aversion or tau outside (0, 1] raises ValueError.", "quantifier": "every combination of constructor arguments", "why_tests_cant": "combinatorial argument space with data-dependent branches", "anchors": ["pypfopt/black_litterman.py:BlackLittermanModel.__init__", "pypfopt/black_litterman.py:BlackLittermanModel._set_omega", "pypfopt/black_litterman.py:BlackLittermanModel._set_pi"]}
{"id": "C58", "title": "Black-Litterman performance uses the posterior whatever was called before", "statement": "After bl_weights, portfolio_performance reports the return under the posterior returns, the volatility under the posterior covariance and their ratio for the current weights, in any order of other calls; without weights it raises ValueError; with only set_weights it reports the volatility alone.", "quantifier": "every sequence of public calls", "why_tests_cant": "needs all interleavings of cached computations", "anchors": ["pypfopt/black_litterman.py:BlackLittermanModel.portfolio_performance", "pypfopt/black_litterman.py:BlackLittermanModel.bl_weights"]}
{"id": "C59", "title": "Market-implied risk aversion", "statement": "market_implied_risk_aversion does not change when all prices are multiplied by a constant, times the annualised variance it equals the annualised excess return, and it is positive exactly when the market return exceeds the risk-free rate.", "quantifier": "every complete price series, frequency > 0, risk-free rate", "why_tests_cant": "unbounded price series", "anchors": ["pypfopt/black_litterman.py:market_implied_risk_aversion"]}
{"id": "C60", "title": "Spectral repair is the nearest covariance", "statement": "For a symmetric matrix that needs repair, fix_nonpositive_semidefinite with the spectral method returns a positive semidefinite matrix no further away, in the Frobenius norm, than any other positive semidefinite matrix, and repairing the result again changes nothing.", "quantifier": "every symmetric matrix of any size", "why_tests_cant": "optimality over a continuum of matrices", "anchors": ["pypfopt/risk_models.py:fix_nonpositive_semidefinite"]}
{"id": "C61", "title": "Copies report their own risk", "statement": "Work on one optimiser object leaves what another object reports unchanged: after copying an object, optimising the copy does not change the weights, return, CVaR, CDaR or semideviation reported by the original.", "quantifier": "every history of calls and copies", "why_tests_cant": "needs a copy, a call on it and another look at the original", "anchors": ["pypfopt/base_optimizer.py:BaseConvexOptimizer.deepcopy", "pypfopt/efficient_frontier/efficient_cvar.py:EfficientCVaR.portfolio_performance", "pypfopt/efficient_frontier/efficient_cdar.py:EfficientCDaR.portfolio_performance"]}
{"id": "C62", "title": "Constructors refuse inputs of different sizes", "statement": "An accepted EfficientFrontier or CLA has one ticker, one pair of bounds, one row and column of covariances and (if given) one expected return per asset; inputs of other sizes raise ValueError, inputs of other types TypeError.", "quantifier": "every combination of expected returns, covariance and bounds, labelled or not, of any size", "why_tests_cant": "combinatorial argument space", "anchors": ["pypfopt/efficient_frontier/efficient_frontier.py:EfficientFrontier.__init__", "pypfopt/efficient_frontier/efficient_frontier.py:EfficientFrontier._validate_expected_returns", "pypfopt/efficient_frontier/efficient_frontier.py:EfficientFrontier._validate_cov_matrix", "pypfopt/cla.py:CLA.__init__"]}
{"id": "C63", "title": "Labelled inputs are matched by label", "statement": "When expected returns and covariances carry asset labels, the optimiser uses for each asset the expected return and the covariances given for that asset, in whatever order they are listed.", "quantifier": "every pair of labelled inputs", "why_tests_cant": "needs inputs in different orders", "anchors": ["pypfopt/efficient_frontier/efficient_frontier.py:EfficientFrontier.__init__"]}
{"id": "C64", "title": "The tail-risk optimisers take one consistent set of assets", "statement": "EfficientCVaR, EfficientCDaR and EfficientSemivariance accept the same inputs: the number of return columns must match the expected returns, which may be omitted; the days used are those without missing returns; assets are named after the inputs' labels.", "quantifier": "every combination of expected returns, returns table, confidence level and bounds", "why_tests_cant": "combinatorial argument space", "anchors": ["pypfopt/efficient_frontier/efficient_cvar.py:EfficientCVaR.__init__", "pypfopt/efficient_frontier/efficient_cdar.py:EfficientCDaR.__init__", "pypfopt/efficient_frontier/efficient_semivariance.py:EfficientSemivariance.__init__", "pypfopt/efficient_frontier/efficient_frontier.py:EfficientFrontier._validate_returns"]}
{"id": "C65", "title": "Latest prices are last quotes", "statement": "get_latest_prices returns for every asset its most recent price that is present; a DiscreteAllocation built from it prices each asset at that quote, and is refused with TypeError exactly when some column has no quote at all.", "quantifier": "every table of prices, with any pattern of missing values", "why_tests_cant": "all patterns of missing values", "anchors": ["pypfopt/discrete_allocation.py:get_latest_prices", "pypfopt/discrete_allocation.py:DiscreteAllocation.__init__"]}
{"id": "C66", "title": "The reported allocation error", "statement": "With verbose=True, a long-only greedy_portfolio or lp_portfolio reports the root mean square difference between each target weight and the share of the invested money in that asset; it is 0 exactly when all shares equal the weights, and at most sqrt(2/n) for n assets with weights summing to at most one.", "quantifier": "every valid long-only portfolio, price series and total value", "why_tests_cant": "all portfolios and numbers of assets", "anchors": ["pypfopt/discrete_allocation.py:DiscreteAllocation._allocation_rmse_error"]}
{"id": "C67", "title": "HRP reports the performance of its weights", "statement": "HRPOpt.portfolio_performance reports the annualised return, volatility and Sharpe ratio, at the means and sample covariances of the returns the object was made from, of the weights the last successful optimize returned or set_weights was given; with a covariance matrix only, just their volatility; before any success it raises ValueError. It agrees with the module-level portfolio_performance on the returned weights.", "quantifier": "every table of returns, every history of calls, every frequency and risk-free rate", "why_tests_cant": "all histories and tables, including missing values", "anchors": ["pypfopt/hierarchical_portfolio.py:HRPOpt.__init__", "pypfopt/hierarchical_portfolio.py:HRPOpt.portfolio_performance"]}
{"id": "C68", "title": "CLA reports the last portfolio and answers in any order", "statement": "CLA.portfolio_performance reports return, volatility and Sharpe ratio, at the data given to the constructor, of the portfolio that max_sharpe, min_volatility or a plot showed last; before that it raises ValueError. If the problem can be solved, max_sharpe, min_volatility and efficient_frontier each give the same answer whatever was called before, and frontier_values holds the frontier shown last.", "quantifier": "every problem and every sequence of calls, failed ones included", "why_tests_cant": "unbounded call sequences", "anchors": ["pypfopt/cla.py:CLA.max_sharpe", "pypfopt/cla.py:CLA.min_volatility", "pypfopt/cla.py:CLA.efficient_frontier", "pypfopt/cla.py:CLA.portfolio_performance"]}
{"id": "C69", "title": "The plot of a CLA object", "statement": "plot_efficient_frontier draws for a CLA object the frontier with the number of points asked for and marks the portfolio of maximum Sharpe ratio, whatever was called before; the points drawn are the returns and volatilities of the frontier's weights, of the marked weights and of the single assets.", "quantifier": "every problem, history of calls and number of points", "why_tests_cant": "depends on the history of the object", "anchors": ["pypfopt/plotting.py:_plot_cla", "pypfopt/plotting.py:plot_efficient_frontier"]}
{"id": "C70", "title": "CLA does not depend on units", "statement": "If all expected returns are multiplied by a positive number and all covariances by another, every sequence of calls on a CLA object gives the same weights and the same exceptions; reported and drawn returns, volatilities and Sharpe ratios change by the corresponding factors.", "quantifier": "every problem, both factors, every sequence of calls", "why_tests_cant": "a relation between two runs of an iterative algorithm", "anchors": ["pypfopt/cla.py:CLA._solve", "pypfopt/cla.py:CLA._purge_excess", "pypfopt/cla.py:CLA._golden_section", "pypfopt/cla.py:CLA._eval_sr"]}
{"id": "C71", "title": "HRP clusters assets by the distance of their correlations", "statement": "HRPOpt.optimize hands to the hierarchical clustering, for each two assets, the distance sqrt((1 - rho) / 2) of their correlation rho over the observations that have both; from a covariance matrix the correlation is rounded to six decimals. Distances are symmetric, lie between 0 and 1 and vanish on the diagonal, so neither the clipping nor the condensed form loses anything.", "quantifier": "every table of returns in which assets vary, with gaps, and every covariance matrix with correlations between -1 and 1", "why_tests_cant": "all tables and matrices; intermediate value", "anchors": ["pypfopt/hierarchical_portfolio.py:HRPOpt.optimize"]}
{"id": "C72", "title": "HRP portfolios do not depend on unit, drift or order of observations", "statement": "HRPOpt.optimize returns the same weights when all returns are multiplied by a nonzero number, when a constant is added to all returns of an asset, and when the observations are listed in another order or under other dates.", "quantifier": "every table of returns with any gaps, every clustering", "why_tests_cant": "a relation between runs on different tables", "anchors": ["pypfopt/hierarchical_portfolio.py:HRPOpt.optimize", "pypfopt/hierarchical_portfolio.py:HRPOpt._raw_hrp_allocation"]}
{"id": "C73", "title": "More return costs risk, with diminishing returns", "statement": "Without additional objectives and up to rounding to 16 decimals: the risk of the portfolios efficient_return returns grows with the target and is a convex function of it; the return of the portfolios efficient_risk returns grows with the target and is a concave function of it; a higher risk aversion in max_quadratic_utility gives neither more risk nor more return. Risk is volatility, CVaR, CDaR or semideviation, according to the class.", "quantifier": "every class, data, bounds and convex constraints, every pair of targets, every history of the objects the portfolios come from", "why_tests_cant": "a relation between answers to different calls on different objects", "anchors": ["pypfopt/efficient_frontier/efficient_frontier.py:EfficientFrontier.efficient_return", "pypfopt/efficient_frontier/efficient_frontier.py:EfficientFrontier.efficient_risk", "pypfopt/efficient_frontier/efficient_frontier.py:EfficientFrontier.max_quadratic_utility", "pypfopt/efficient_frontier/efficient_cvar.py:EfficientCVaR.efficient_return", "pypfopt/efficient_frontier/efficient_cdar.py:EfficientCDaR.efficient_return", "pypfopt/efficient_frontier/efficient_semivariance.py:EfficientSemivariance.efficient_return"]}
{"id": "C74", "title": "The methods agree with each other", "statement": "Without additional objectives and up to rounding: no method returns a portfolio with less risk than min_volatility (min_cvar, min_cdar, min_semivariance), and a target return that this portfolio reaches changes nothing about the risk; efficient_risk at the risk of an efficient_return portfolio returns at least that return, and efficient_return at the return of an efficient_risk portfolio has no more risk; the max_quadratic_utility portfolio lies on the frontier that efficient_return describes; no method returns a portfolio with a higher Sharpe ratio than max_sharpe.", "quantifier": "every class, data, bounds and constraints, every target, every history", "why_tests_cant": "a relation between answers of different methods", "anchors": ["pypfopt/efficient_frontier/efficient_frontier.py:EfficientFrontier.min_volatility", "pypfopt/efficient_frontier/efficient_frontier.py:EfficientFrontier.max_sharpe", "pypfopt/efficient_frontier/efficient_frontier.py:EfficientFrontier.efficient_risk", "pypfopt/efficient_frontier/efficient_frontier.py:EfficientFrontier.efficient_return", "pypfopt/efficient_frontier/efficient_frontier.py:EfficientFrontier.max_quadratic_utility"]}
{"id": "C75", "title": "One answer, whatever the solver, history, order of assets and units", "statement": "For a positive definite covariance, convex constraints and no additional objectives, min_volatility, efficient_return, max_quadratic_utility and max_sharpe of EfficientFrontier each have one answer: two programs, with any solvers and histories, whose inputs differ in the order of the assets, in the unit of the covariances and in the unit of the returns (and of target, risk-free rate and risk aversion accordingly) get the same weight for each asset.", "quantifier": "every data, bounds, convex constraints, permutation and positive factors", "why_tests_cant": "a relation between runs on different inputs with different solvers", "anchors": ["pypfopt/efficient_frontier/efficient_frontier.py:EfficientFrontier.min_volatility", "pypfopt/efficient_frontier/efficient_frontier.py:EfficientFrontier.efficient_return", "pypfopt/efficient_frontier/efficient_frontier.py:EfficientFrontier.max_quadratic_utility", "pypfopt/efficient_frontier/efficient_frontier.py:EfficientFrontier.max_sharpe"]}
{"id": "C76", "title": "The report is on the last portfolio, at the rate asked for", "statement": "EfficientFrontier.portfolio_performance reports on the portfolio shown last - returned by an optimisation or accepted by set_weights - and raises before there is one: its expected return, its volatility and its Sharpe ratio at the risk-free rate given. Without expected returns it reports the volatility alone.", "quantifier": "every history of calls, returning or raising, every portfolio, covariance and rate", "why_tests_cant": "all histories; the object carries state from call to call", "anchors": ["pypfopt/efficient_frontier/efficient_frontier.py:EfficientFrontier.portfolio_performance", "pypfopt/efficient_frontier/efficient_frontier.py:EfficientFrontier.max_sharpe", "pypfopt/base_optimizer.py:portfolio_performance"]}
{"id": "C77", "title": "Refused calls change nothing", "statement": "A method the class does not offer raises, and so does an argument that can never be used - a risk aversion that is not positive, a negative target volatility, a target return that is no number or out of range, a risk-free rate no asset beats, missing expected returns. Such a call leaves the object, its copies and all parameters as they were, so nothing that happens later depends on it.", "quantifier": "every class, every state of the object, every such call", "why_tests_cant": "all states an object can be in", "anchors": ["pypfopt/efficient_frontier/efficient_frontier.py:EfficientFrontier.max_quadratic_utility", "pypfopt/efficient_frontier/efficient_frontier.py:EfficientFrontier.efficient_risk", "pypfopt/efficient_frontier/efficient_cvar.py:EfficientCVaR.set_weights", "pypfopt/efficient_frontier/efficient_cdar.py:EfficientCDaR.set_weights", "pypfopt/efficient_frontier/efficient_semivariance.py:EfficientSemivariance.min_volatility"]}
{"id": "C78", "title": "One object, one method; trying another is refused and harmless", "statement": "Once an object, or the object it was copied from, has returned weights, every call that returns weights later is of the same target method with the same market neutrality, or both were convex_objective; every other optimisation method raises. Such a refused call does not affect the object: the method that worked before still works.", "quantifier": "every class, data, history of calls on any number of objects and copies, every solver", "why_tests_cant": "all histories", "anchors": ["pypfopt/base_optimizer.py:BaseConvexOptimizer._solve_cvxpy_opt_problem", "pypfopt/base_optimizer.py:BaseConvexOptimizer.is_parameter_defined", "pypfopt/efficient_frontier/efficient_frontier.py:EfficientFrontier.efficient_risk", "pypfopt/efficient_frontier/efficient_frontier.py:EfficientFrontier.min_volatility", "pypfopt/efficient_frontier/efficient_cvar.py:EfficientCVaR.efficient_risk"]}
{"id": "C79", "title": "nonconvex_objective minimises what was asked, within the bounds of the object", "statement": "nonconvex_objective has scipy minimise the given function, called with the weights and the entries of the argument tuple, over the weights within the bounds given to the constructor that satisfy the given constraints, the constraints added to the object and, if wanted, sum to one, starting from the given or from equal weights. The point found is returned and becomes the portfolio of the object; if none is found the call raises. Nothing else about the object changes.", "quantifier": "every class, objective, arguments, constraints, bounds and history of the object, every behaviour of scipy", "why_tests_cant": "all histories of the object; what matters is the request, which the caller does not see", "anchors": ["pypfopt/base_optimizer.py:BaseConvexOptimizer.nonconvex_objective", "pypfopt/base_optimizer.py:BaseConvexOptimizer._map_bounds_to_constraints", "pypfopt/efficient_frontier/efficient_frontier.py:EfficientFrontier._make_weight_sum_constraint"]}
{"id": "C80", "title": "max_sharpe finds the portfolio of largest Sharpe ratio whenever there is one", "statement": "As the first optimisation of an object, max_sharpe returns weights exactly if some admissible portfolio beats the risk-free rate and has the largest Sharpe ratio, and then those of such a portfolio. Rates that no portfolio beats are refused: with ValueError if no asset beats them, otherwise with OptimizationError.", "quantifier": "every covariance, expected returns, bounds, linear constraints and rate", "why_tests_cant": "the optimum of the problem solved is related to the one asked for by a change of variables that must lose no portfolio", "anchors": ["pypfopt/efficient_frontier/efficient_frontier.py:EfficientFrontier.max_sharpe"]}
{"id": "C81", "title": "Lost price changes are warned about", "statement": "When a return model is given prices from which some price change is lost because quotes are missing, it warns; without a warning the estimate of every asset rests on all its price changes. Prices missing before an asset is first quoted are no reason for a warning.", "quantifier": "every table of positive prices with any pattern of missing quotes", "why_tests_cant": "all patterns of missing values", "anchors": ["pypfopt/expected_returns.py:_check_returns", "pypfopt/expected_returns.py:returns_from_prices", "pypfopt/expected_returns.py:mean_historical_return"]}
{"id": "C82", "title": "Covariance estimates do not depend on units or on how the data are laid out", "statement": "Given the same complete returns with the assets in another order, in another unit (k units to one) and with a constant added to the returns of each asset, every covariance estimate is the same matrix in the new order of assets, times k squared, and the shrinkage intensity is the same number; the order of the days does not matter. Semicovariance needs a positive unit and its benchmark restated with the returns. Quoting the prices of each asset in a unit of its own changes no estimate.", "quantifier": "every complete table of returns or positive prices, every reordering, unit and shift", "why_tests_cant": "all tables and all their restatements", "anchors": ["pypfopt/risk_models.py:sample_cov", "pypfopt/risk_models.py:semicovariance", "pypfopt/risk_models.py:exp_cov", "pypfopt/risk_models.py:CovarianceShrinkage.shrunk_covariance", "pypfopt/risk_models.py:CovarianceShrinkage._ledoit_wolf_single_factor", "pypfopt/risk_models.py:CovarianceShrinkage._ledoit_wolf_constant_correlation", "pypfopt/risk_models.py:risk_matrix"]}
{"id": "C83", "title": "A day on which a return is missing is left out", "statement": "Where returns are missing, the covariance estimate of two assets is the estimate from the days on which both have a return: a missing return is left out and does not count as a return of some size.", "quantifier": "every table of returns with any pattern of missing values", "why_tests_cant": "all patterns of missing values", "anchors": ["pypfopt/risk_models.py:sample_cov", "pypfopt/risk_models.py:semicovariance", "pypfopt/risk_models.py:_pair_exp_cov", "pypfopt/risk_models.py:exp_cov", "pypfopt/risk_models.py:CovarianceShrinkage._ledoit_wolf_single_factor"]}
{"id": "C84", "title": "The Black-Litterman posterior does not depend on how the problem is written down", "statement": "Stating the same views in another order, multiplying both sides of a view by a number, listing the assets in another order or measuring returns in another unit (u units to one) gives the same posterior: the returns in the new order times u, the covariance matrix in the new order times u squared, and the same weights, whatever the risk aversion. The uncertainty is restated with the views by default and with Idzorek's method.", "quantifier": "every covariance, prior, views, reordering, multiples and unit, every history of calls on either model", "why_tests_cant": "all problems and all their restatements", "anchors": ["pypfopt/black_litterman.py:BlackLittermanModel.bl_returns", "pypfopt/black_litterman.py:BlackLittermanModel.bl_cov", "pypfopt/black_litterman.py:BlackLittermanModel.bl_weights", "pypfopt/black_litterman.py:BlackLittermanModel.default_omega", "pypfopt/black_litterman.py:BlackLittermanModel.idzorek_method"]}
{"id": "C85", "title": "A request that can be met is met", "statement": "As the first optimization of an object of any of the four mean-risk classes, a call returns weights if some portfolio within the bounds and constraints meets the request (a risk of at most the target, a return of at least the target, a return above the risk-free rate); the returned portfolio is, up to rounding, such a portfolio. If none does, the call raises OptimizationError, or ValueError for a target above the largest possible return. The same holds of further targets of the same method on the same object, whatever became of the earlier ones.", "quantifier": "every data set, finite bounds, closed constraints on the weights, continuous added objectives and target", "why_tests_cant": "all portfolios, data sets and targets", "anchors": ["pypfopt/efficient_frontier/efficient_frontier.py:EfficientFrontier.min_volatility", "pypfopt/efficient_frontier/efficient_frontier.py:EfficientFrontier.max_sharpe", "pypfopt/efficient_frontier/efficient_frontier.py:EfficientFrontier.efficient_risk", "pypfopt/efficient_frontier/efficient_frontier.py:EfficientFrontier.efficient_return", "pypfopt/efficient_frontier/efficient_cvar.py:EfficientCVaR.efficient_risk", "pypfopt/efficient_frontier/efficient_cdar.py:EfficientCDaR.efficient_return", "pypfopt/efficient_frontier/efficient_semivariance.py:EfficientSemivariance.efficient_return", "pypfopt/base_optimizer.py:BaseConvexOptimizer._solve_cvxpy_opt_problem"]}
{"id": "C86", "title": "tau does not matter where the documentation says so", "statement": "With the default uncertainty of views or Idzorek's method, the value of tau makes no difference: models that differ only in tau have the same posterior and the same weights.", "quantifier": "every covariance, prior, views, confidences, risk aversion and two values of tau, every history of calls on either model", "why_tests_cant": "all models, all values of tau", "anchors": ["pypfopt/black_litterman.py:BlackLittermanModel.default_omega", "pypfopt/black_litterman.py:BlackLittermanModel.idzorek_method", "pypfopt/black_litterman.py:BlackLittermanModel.bl_returns", "pypfopt/black_litterman.py:BlackLittermanModel.bl_cov", "pypfopt/black_litterman.py:BlackLittermanModel.bl_weights"]}
{"id": "C87", "title": "The posterior is an average of prior and views, weighted by confidence", "statement": "The posterior returns are closer to prior and views together than any other returns, distances being measured by tau times the covariance and by the uncertainty of the views; they fit the views at least as well as the prior. The return of the portfolio a single view, or one of several uncorrelated views, is about is the average of prior and view weighted with the variance of the prior and the uncertainty: with Idzorek's method it moves from the prior the fraction of the way to the view that is the confidence, by default half the way. More certainty about one of any views never makes the posterior miss it by more.", "quantifier": "every covariance, prior, views, uncertainties and confidences, every history of calls", "why_tests_cant": "all return vectors, all models", "anchors": ["pypfopt/black_litterman.py:BlackLittermanModel.bl_returns", "pypfopt/black_litterman.py:BlackLittermanModel.default_omega", "pypfopt/black_litterman.py:BlackLittermanModel.idzorek_method"]}
{"id": "C88", "title": "Views only reduce the posterior covariance, and can be worked in one after another", "statement": "A model with further views, or with the same views held with more certainty, has a posterior covariance that is not larger for any portfolio, whatever the views say. Views that err independently can be worked in in batches: the model whose prior is the posterior of the first batch, with what the posterior covariance adds to the covariance in place of tau times the covariance, has the posterior of the model with all views.", "quantifier": "every covariance, prior, views and uncertainties, every way of splitting the views, every history of calls", "why_tests_cant": "all models and all splits of their views", "anchors": ["pypfopt/black_litterman.py:BlackLittermanModel.bl_cov", "pypfopt/black_litterman.py:BlackLittermanModel.bl_returns"]}
{"id": "C89", "title": "Charts show the data they are given", "statement": "plot_weights shows every ticker with its weight and nothing else, the heaviest on top, equal ones in the order of the portfolio. plot_covariance shows at row i and column j the covariance (or correlation) of the assets named beside the row and below the column. plot_dendrogram shows each asset once under its own name, in the order the weights come from, and leaves an optimised object as it is. The assets in the plot of a frontier stand at their risk and expected return. If a filename is given, the chart and nothing else is saved.", "quantifier": "every portfolio, covariance, HRP object with any history of calls, figure, axes and keywords", "why_tests_cant": "all portfolios, matrices and histories", "anchors": ["pypfopt/plotting.py:plot_weights", "pypfopt/plotting.py:plot_covariance", "pypfopt/plotting.py:plot_dendrogram", "pypfopt/plotting.py:plot_efficient_frontier", "pypfopt/plotting.py:_plot_io"]}
{"id": "C90", "title": "A parameter is found wherever it stands", "statement": "is_parameter_defined returns True if a parameter of that name stands at exactly one place, however deep, in the constraints and the objective, False if at none, and raises InstantiationError otherwise. update_parameter_value then gives this parameter the value and changes no other; if it raises, nothing has changed.", "quantifier": "every expression tree of any depth and width, every object, name and value", "why_tests_cant": "expression trees of any size", "anchors": ["pypfopt/base_optimizer.py:BaseConvexOptimizer.is_parameter_defined", "pypfopt/base_optimizer.py:BaseConvexOptimizer.update_parameter_value", "pypfopt/base_optimizer.py:_get_all_args", "pypfopt/base_optimizer.py:_flatten"]}
{"id": "C91", "title": "Turning points of CLA are optimal", "statement": "Every turning point CLA keeps is optimal for its multiplier among all portfolios within the bounds: none has at least its return with less variance. The first has the largest return, and no portfolio within the bounds has less variance than the answer of min_volatility. If no asset is bound on the way, every point of efficient_frontier is efficient.", "quantifier": "every expected returns, positive definite covariance, bounds per asset and number of assets, every portfolio within the bounds, every run that finishes", "why_tests_cant": "all portfolios within the bounds, problems of any size, runs of any length", "anchors": ["pypfopt/cla.py:CLA._solve", "pypfopt/cla.py:CLA._get_matrices", "pypfopt/cla.py:CLA.min_volatility", "pypfopt/cla.py:CLA.efficient_frontier"]}
{"id": "C92", "title": "CLA always finds the portfolio of least variance", "statement": "min_volatility of a CLA object answers after finitely many iterations, and no portfolio within the bounds has less variance than its answer.", "quantifier": "every expected returns, positive definite covariance, bounds per asset that allow a portfolio, and number of assets", "why_tests_cant": "termination of a loop without a bound, for problems of any size", "anchors": ["pypfopt/cla.py:CLA._solve", "pypfopt/cla.py:CLA._compute_lambda", "pypfopt/cla.py:CLA._compute_w", "pypfopt/cla.py:CLA.min_volatility"]}
{"id": "C93", "title": "The robust covariance is that of some of the complete days", "statement": "min_cov_determinant returns the yearly covariance of some of the days on which every asset has a return, labelled by the columns and positive semidefinite. In a frame of returns the days with a missing return do not matter, nor in complete positive prices the unit in which an asset is quoted; with fewer than two complete days there is a ValueError.", "quantifier": "every frame of prices or returns, seed, nonnegative frequency and repair method", "why_tests_cant": "frames of any size with gaps anywhere, every answer the randomised library may give", "anchors": ["pypfopt/risk_models.py:min_cov_determinant", "pypfopt/risk_models.py:fix_nonpositive_semidefinite"]}
{"id": "C94", "title": "Whole-share allocation with shorts is best on each side", "statement": "When lp_portfolio returns for a portfolio with short positions, share counts have the sign of their weights, the shares bought and the shares sold short each cost at most their own budget (total and total*short_ratio, plus reinvested shorts if asked), the leftover is exactly what both leave, and on neither side is any affordable whole-share portfolio closer to its targets. The order of the prices does not matter.", "quantifier": "every portfolio with at least one short, every list of prices in any order, both settings of reinvest, every optimal solver answer", "why_tests_cant": "all whole-share portfolios on either side, universes of any size", "anchors": ["pypfopt/discrete_allocation.py:DiscreteAllocation.lp_portfolio"]}
