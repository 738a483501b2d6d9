#!/usr/bin/env python3
"""Source of properties.jsonl (run: python3 tools/props.py)."""
import json, os
P = []
def p(title, statement, quantifier, why, anchors):
    P.append(dict(id="C%02d" % (len(P) + 1), title=title, statement=statement,
                  quantifier=quantifier, why_tests_cant=why, anchors=anchors))

DA = "pypfopt/discrete_allocation.py"
BO = "pypfopt/base_optimizer.py"
BL = "pypfopt/black_litterman.py"
CL = "pypfopt/cla.py"
HR = "pypfopt/hierarchical_portfolio.py"
ER = "pypfopt/expected_returns.py"
RM = "pypfopt/risk_models.py"
OF = "pypfopt/objective_functions.py"
EF = "pypfopt/efficient_frontier/efficient_frontier.py"
CV = "pypfopt/efficient_frontier/efficient_cvar.py"
CD = "pypfopt/efficient_frontier/efficient_cdar.py"
SV = "pypfopt/efficient_frontier/efficient_semivariance.py"
PL = "pypfopt/plotting.py"

# ---- discrete allocation -------------------------------------------------
p("Greedy allocation balances the books",
  "For a long-only portfolio, DiscreteAllocation.greedy_portfolio returns whole non-negative share counts and a leftover >= 0 such that leftover + sum over tickers of shares*price is exactly total_portfolio_value.",
  "every list of tickers, every non-negative weight vector of sum <= 1, every positive price vector, every positive total value",
  "the identity must survive an unbounded number of one-share purchases for every weight/price vector; tests sample a handful of portfolios",
  [DA + ":DiscreteAllocation.greedy_portfolio", DA + ":DiscreteAllocation._remove_zero_positions"])
p("Greedy allocation always terminates and never trips its own assertion",
  "greedy_portfolio finishes for every portfolio with positive prices (long-only or long/short), and with non-negative weights of sum <= 1 the 'Unexpectedly insufficient funds' assertion is never raised.",
  "every weight vector, every positive price vector, every positive total value",
  "termination is a statement about the absence of infinite runs; a test can only observe runs that end",
  [DA + ":DiscreteAllocation.greedy_portfolio"])
p("Greedy allocation never buys less than the rounded-down target",
  "In a long-only greedy allocation every asset ends with at least floor(weight*total/price) shares, the result mentions only input tickers, and it lists exactly the tickers with a non-zero share count.",
  "every long-only portfolio",
  "the second buying round runs an unbounded number of times and may touch any asset in any order",
  [DA + ":DiscreteAllocation.greedy_portfolio", DA + ":DiscreteAllocation._remove_zero_positions"])
p("Greedy allocation only stops when nothing useful is affordable",
  "When greedy_portfolio returns, every asset whose price is at most the leftover cash already holds at least its desired fraction of the invested value (no affordable under-weight asset is left).",
  "every long-only portfolio of any size",
  "the stopping rule contains a hard-coded retry counter; whether it can fire early depends on the number of unaffordable assets, which tests do not explore",
  [DA + ":DiscreteAllocation.greedy_portfolio"])
p("Greedy long/short allocation splits value correctly",
  "With short positions, greedy_portfolio gives positive counts only to assets of weight >= 0 and negative counts only to assets of weight < 0; long value + |short value| + leftover equals the long budget plus the short budget (total and total*short_ratio, plus reinvested shorts if asked), and each side stays within its own budget.",
  "every portfolio with at least one short and one positive long, every short ratio > 0, both settings of reinvest",
  "combines two unbounded greedy runs over arbitrary sub-portfolios",
  [DA + ":DiscreteAllocation.greedy_portfolio", DA + ":DiscreteAllocation.__init__"])
p("Linear-programming allocation is the best whole-share portfolio",
  "If the integer solver reports an optimum, lp_portfolio returns whole non-negative shares costing at most total_portfolio_value, the leftover is exactly the unspent cash, and no other affordable whole-share portfolio has a smaller sum of absolute deviations from the target dollar amounts plus leftover.",
  "every long-only portfolio whose price series is listed in the same order as the weights, every optimal solver answer",
  "optimality quantifies over all integer portfolios",
  [DA + ":DiscreteAllocation.lp_portfolio"])
p("Allocation depends on the data, not on its order or on earlier calls",
  "lp_portfolio pairs each ticker's weight with that ticker's price whatever the order of the price series and whatever allocation methods were called before on the same object.",
  "every ordering of latest_prices, every history of allocation calls on the object",
  "tests always pass prices and weights in the same column order and use a fresh object per call",
  [DA + ":DiscreteAllocation.lp_portfolio", DA + ":DiscreteAllocation.greedy_portfolio"])
p("Allocation input validation",
  "DiscreteAllocation accepts exactly dict weights without NaN, a NaN-free price series, a positive total value and a non-negative (or absent) short ratio, reports the documented exception otherwise, and every accepted long/short input can be allocated with every accepted short ratio.",
  "every constructor argument combination",
  "the failure only shows up for a combination of an accepted ratio and a later method call",
  [DA + ":DiscreteAllocation.__init__", DA + ":DiscreteAllocation.greedy_portfolio"])
# ---- base optimizer ------------------------------------------------------
p("Weights survive the dict/array round trip",
  "For an optimizer with distinct tickers, set_weights followed by reading the weights back as a dict returns the same ticker->weight mapping in ticker order; extra keys are ignored; a missing ticker raises and leaves the stored weights unchanged.",
  "every ticker list, every input mapping",
  "quantifies over all key sets and orders",
  [BO + ":BaseOptimizer.set_weights", BO + ":BaseOptimizer._make_output_weights"])
p("clean_weights only rounds and zeroes",
  "clean_weights never changes the stored weights, keeps ticker order, sends each weight w to 0 when |w| < cutoff and otherwise to the multiple of 10^-rounding closest to w (error at most half a unit), never flips a sign, and cleaning the cleaned weights changes nothing more when the cutoff is itself a multiple of 10^-rounding; invalid rounding raises.",
  "every weight vector, every cutoff >= 0, every rounding digit count >= 1 or None",
  "idempotence and error bounds are universally quantified over real weights",
  [BO + ":BaseOptimizer.clean_weights"])
p("Saving weights is all-or-nothing on the file extension",
  "save_weights_to_file writes the cleaned weights in the format selected by the case-insensitive text after the last dot, and for any other extension raises and writes no file.",
  "every file name, every optimizer state",
  "all strings",
  [BO + ":BaseOptimizer.save_weights_to_file"])
p("Weight bounds mean the same in every accepted spelling",
  "A single (low, high) pair, a per-asset list of pairs and a pair of arrays describing the same bounds admit exactly the same weight vectors; None means the documented default; malformed bounds raise TypeError.",
  "every number of assets, every bound value and spelling",
  "spelling is disambiguated by length, so it can only go wrong at particular asset counts",
  [BO + ":BaseConvexOptimizer._map_bounds_to_constraints", CL + ":CLA.__init__"])
p("Reported performance is consistent and order-independent",
  "portfolio_performance returns (w.mu, sqrt(w'Sw), (w.mu-rf)/sqrt(w'Sw)); with dict weights the result does not depend on dict order, missing tickers count as zero and unknown tickers are ignored; a None or all-zero-sum dict raises ValueError.",
  "every weight vector/dict, expected return vector, covariance, risk-free rate",
  "order independence over all permutations",
  [BO + ":portfolio_performance", OF + ":sharpe_ratio", OF + ":portfolio_variance", OF + ":portfolio_return"])
# ---- HRP -----------------------------------------------------------------
p("HRP weights form a long-only fully invested portfolio",
  "HRPOpt.optimize returns exactly one weight per ticker, every weight strictly between 0 and 1 (equal to 1 for a single asset) and weights summing to exactly 1.",
  "every number of assets, every positive definite covariance (or any with positive cluster variances), every leaf order produced by the clustering",
  "recursive bisection of unbounded depth over arbitrary matrices",
  [HR + ":HRPOpt._raw_hrp_allocation", HR + ":HRPOpt.optimize", HR + ":HRPOpt._get_cluster_var"])
p("HRP balances risk at every split",
  "At every bisection the total weights of the two halves are inversely proportional to the inverse-variance cluster variances of the halves.",
  "every covariance with positive cluster variances, every leaf order, every split of the tree",
  "all nodes of a tree of unbounded size",
  [HR + ":HRPOpt._raw_hrp_allocation", HR + ":HRPOpt._get_cluster_var"])
p("HRP does not depend on the unit of covariance",
  "Multiplying the covariance by any positive constant (e.g. annualising it) leaves the HRP weights unchanged.",
  "every covariance, every scale > 0",
  "an invariance over all reals",
  [HR + ":HRPOpt._raw_hrp_allocation"])
# ---- CLA -----------------------------------------------------------------
p("CLA starts from the feasible portfolio of maximum return",
  "When lower bounds sum to less than 1 and upper bounds to at least 1, the first turning point is within bounds, sums to 1, has at most one weight strictly between its bounds, and no feasible portfolio has a higher expected return; otherwise an IndexError is raised rather than a wrong answer.",
  "every mean vector, every bound vectors with lower <= upper",
  "optimality over all feasible portfolios",
  [CL + ":CLA._init_algo"])
p("CLA purging keeps only valid, return-ordered turning points",
  "After solving, every stored turning point sums to 1 and respects the bounds within 1e-9; the four result lists stay aligned; the purging loops terminate; apart from the first, turning points are in non-increasing order of return.",
  "every list of candidate turning points",
  "in-place deletion while iterating over lists of any length",
  [CL + ":CLA._purge_num_err", CL + ":CLA._purge_excess"])
p("CLA results are feasible portfolios",
  "The portfolios returned by CLA.max_sharpe, min_volatility and every point of efficient_frontier are convex combinations of adjacent turning points, hence sum to 1 and respect the bounds within the purge tolerance.",
  "every objective shape, every list of turning points, every number of frontier points",
  "the line search runs a data-dependent number of iterations with an approximate golden ratio",
  [CL + ":CLA._golden_section", CL + ":CLA.max_sharpe", CL + ":CLA.efficient_frontier", CL + ":CLA.min_volatility"])
p("CLA solves each sub-problem exactly",
  "For a given split into free and bound assets and a given return multiplier, the free weights CLA computes are those of the unique portfolio minimising half variance minus multiplier times return among portfolios that agree with the bound weights and sum to 1; and the multiplier it computes for an asset is exactly the one at which that asset's weight hits the given bound.",
  "every positive definite covariance, every free set, every multiplier",
  "linear algebra identity over all matrices",
  [CL + ":CLA._compute_w", CL + ":CLA._compute_lambda"])
p("CLA.min_volatility returns the least volatile stored portfolio",
  "The portfolio returned by CLA.min_volatility has variance no larger than any other turning point, and if the last turning point is in the list and satisfies the first-order conditions, no larger than any feasible portfolio.",
  "every list of turning points, every positive semidefinite covariance",
  "global optimality over a continuum",
  [CL + ":CLA.min_volatility", CL + ":CLA._solve"])
# ---- Black-Litterman -----------------------------------------------------
p("Black-Litterman posterior returns satisfy the master formula",
  "bl_returns equals [(tau S)^-1 + P' O^-1 P]^-1 [(tau S)^-1 pi + P' O^-1 Q] whenever the inverses exist, and calling it repeatedly returns the same vector.",
  "every number of assets and views, every positive definite S and O, every P, Q, pi, tau in (0,1]",
  "matrix identity over all dimensions",
  [BL + ":BlackLittermanModel.bl_returns"])
p("Black-Litterman posterior covariance is a valid covariance",
  "bl_cov equals S + [(tau S)^-1 + P' O^-1 P]^-1, is symmetric positive definite, and lies between S and (1+tau) S.",
  "every number of assets and views, every positive definite S and O",
  "matrix inequality over all dimensions",
  [BL + ":BlackLittermanModel.bl_cov"])
p("Views that agree with the prior change nothing; certain views are honoured",
  "If Q = P pi the posterior returns equal the prior; if the view uncertainty is zero the posterior satisfies every view exactly (P posterior = Q).",
  "every positive definite covariance, every prior, every views matrix (certain views jointly satisfiable)",
  "for all inputs",
  [BL + ":BlackLittermanModel.bl_returns", BL + ":BlackLittermanModel.idzorek_method"])
p("Implied Black-Litterman weights sum to one and solve the right system",
  "bl_weights returns weights that sum to exactly 1 and are proportional to S^-1 times the posterior returns; they do not depend on the risk_aversion argument; when S is singular the fallback still solves a system with S.",
  "every posterior, every risk aversion > 0, singular or not",
  "the singular branch is never reached by tests; invariance is over all reals",
  [BL + ":BlackLittermanModel.bl_weights"])
p("View uncertainty matrices are valid",
  "default_omega and idzorek_method return a KxK diagonal matrix with non-negative entries; Idzorek entries are tau*((1-c)/c)*p S p' (0 at full confidence, 1e6 at zero confidence), never increase with confidence, and any confidence outside [0,1] raises ValueError.",
  "every number of views, every confidence vector, every positive semidefinite S",
  "for all confidences and matrices",
  [BL + ":BlackLittermanModel.default_omega", BL + ":BlackLittermanModel.idzorek_method"])
p("Absolute views are placed on the right assets",
  "Given a dict of absolute views on distinct known tickers, row i of P picks exactly the i-th viewed asset and Q holds its view, so P r lists the returns of the viewed assets; a view on an unknown ticker raises ValueError.",
  "every ticker list, every view mapping",
  "for all key sets",
  [BL + ":BlackLittermanModel._parse_views"])
p("Market-implied prior inverts to the market portfolio",
  "market_implied_prior_returns is unchanged when all market caps are multiplied by a positive constant, and with zero risk-free rate and views consistent with the prior, bl_weights returns exactly the market-cap weights.",
  "every cap vector with non-zero sum, every invertible covariance",
  "composition of two modules for all inputs",
  [BL + ":market_implied_prior_returns", BL + ":BlackLittermanModel.bl_weights"])
# ---- expected returns ----------------------------------------------------
p("Prices and returns are inverse up to the first period",
  "returns_from_prices(prices_from_returns(r)) gives back r without its first row, prices_from_returns(returns_from_prices(p)) gives p rescaled to start at 1 from its second row, for both simple and log returns, and neither call changes its argument.",
  "every series of complete positive prices, or of complete returns above -1, of any length",
  "for all series",
  [ER + ":returns_from_prices", ER + ":prices_from_returns"])
p("Compounded mean return is the CAGR of first and last price",
  "For complete positive prices, mean_historical_return with compounding equals (last/first)^(frequency/periods) - 1 whatever happened in between, and no return estimate changes when an asset's prices are multiplied by a positive constant.",
  "every positive price series, every frequency",
  "telescoping over any number of periods",
  [ER + ":mean_historical_return", ER + ":ema_historical_return", ER + ":returns_from_prices"])
p("Exponential averages are true averages",
  "The exponentially weighted mean used by ema_historical_return and exp_cov is a convex combination of the observations with positive weights that strictly increase towards the most recent when span > 1 (span = 1 keeps only the last observation), so it lies between the smallest and largest observation.",
  "every series, every span >= 1",
  "for all lengths and spans",
  [ER + ":ema_historical_return", RM + ":_pair_exp_cov"])
p("CAPM estimates average to the market",
  "With the default equal-weighted market proxy the betas average to exactly 1, so the mean CAPM return over assets equals the market return; estimates lie on the security market line.",
  "every complete return matrix with a non-constant average",
  "identity over all matrices",
  [ER + ":capm_return"])
p("Return estimation does not modify the caller's data",
  "capm_return leaves every data frame passed by the caller unchanged.",
  "every combination of arguments",
  "aliasing depends on the argument combination",
  [ER + ":capm_return"])
# ---- risk models ---------------------------------------------------------
p("fix_nonpositive_semidefinite returns a covariance",
  "For a symmetric input and either fix method the result is symmetric and positive semidefinite (up to the 1e-16 test tolerance), is the input itself when that already passes the test, and an unknown method is rejected with NotImplementedError.",
  "every symmetric matrix of any size",
  "spectral statement over all matrices",
  [RM + ":fix_nonpositive_semidefinite", RM + ":_is_positive_semidefinite"])
p("Covariance estimators are symmetric positive semidefinite",
  "On complete data sample_cov, semicovariance and exp_cov return symmetric positive semidefinite matrices that are returned unfixed, with the documented entries, linear in frequency.",
  "every complete return matrix, every span, benchmark and frequency >= 0",
  "for all data sizes",
  [RM + ":sample_cov", RM + ":semicovariance", RM + ":exp_cov", RM + ":_pair_exp_cov"])
p("Covariance and correlation conversions are inverse",
  "cov_to_corr returns unit diagonal and entries in [-1,1]; corr_to_cov(cov_to_corr(S), sqrt(diag S)) = S and cov_to_corr(corr_to_cov(R, s)) = R for positive s.",
  "every positive semidefinite covariance with positive diagonal, every correlation matrix",
  "for all matrices",
  [RM + ":cov_to_corr", RM + ":corr_to_cov"])
p("Shrinkage is a convex combination that keeps total variance",
  "Ledoit-Wolf single-factor and constant-correlation shrinkage use an intensity in [0,1] and leave every asset's variance unchanged; manual shrinkage keeps the trace; results are positive semidefinite for a positive semidefinite target, and with two assets constant-correlation shrinkage returns the sample covariance.",
  "every return matrix",
  "for all data, including degenerate data",
  [RM + ":CovarianceShrinkage.shrunk_covariance", RM + ":CovarianceShrinkage._ledoit_wolf_single_factor", RM + ":CovarianceShrinkage._ledoit_wolf_constant_correlation"])
# ---- objective functions -------------------------------------------------
p("Objective functions compute their documented formulas",
  "Each objective is the documented formula, the negative flag flips exactly the sign, penalties are non-negative and vanish exactly at zero weights / unchanged weights / benchmark weights, and the variance, tracking-error, L2 and transaction-cost objectives are convex in the weights.",
  "every weight vector and parameters",
  "convexity quantifies over all pairs of portfolios",
  [OF + ":portfolio_variance", OF + ":portfolio_return", OF + ":quadratic_utility", OF + ":L2_reg", OF + ":transaction_cost", OF + ":ex_ante_tracking_error", OF + ":ex_post_tracking_error"])
# ---- convex optimizer object --------------------------------------------
p("A solved optimizer never silently solves a different problem",
  "For every history of calls on one EfficientFrontier object, if an optimisation method returns weights then they come from solving exactly the problem that method documents: its objective plus the added objectives, the weight bounds, the added constraints, its target at the value passed in this call, and the right weight sum.",
  "every finite sequence of method calls with any arguments, with any solver answers, including failing calls",
  "histories are unbounded; tests try a few two-call sequences",
  [BO + ":BaseConvexOptimizer._solve_cvxpy_opt_problem", BO + ":BaseConvexOptimizer.add_constraint", BO + ":BaseConvexOptimizer.add_objective", BO + ":BaseConvexOptimizer.update_parameter_value", EF + ":EfficientFrontier"])
p("Adding to a solved problem is refused and harmless",
  "Once an optimisation has been attempted, add_objective, add_constraint and add_sector_constraints with at least one entry raise InstantiationError and leave the object unchanged, for ever.",
  "every history",
  "unbounded histories",
  [BO + ":BaseConvexOptimizer.add_objective", BO + ":BaseConvexOptimizer.add_constraint"])
p("Re-solving with a new target equals a fresh optimizer",
  "Calling the same target method repeatedly with new targets on one object passes to the solver the same problem as a fresh object configured identically would, for every sequence of targets, and changing market neutrality between calls raises InstantiationError.",
  "every sequence of targets, every configuration",
  "unbounded sequences",
  [EF + ":EfficientFrontier.efficient_risk", EF + ":EfficientFrontier.efficient_return", EF + ":EfficientFrontier.max_quadratic_utility", BO + ":BaseConvexOptimizer.is_parameter_defined"])
p("Returned portfolios satisfy what was asked",
  "If the solver reports an optimum, weights returned by min_volatility, max_quadratic_utility, efficient_risk and efficient_return lie within the bounds, satisfy all added constraints, sum to 1 (or 0 if market neutral), meet the target (volatility at most / return at least), and no portfolio meeting the same requirements has a better objective.",
  "every problem data, every optimal solver answer",
  "optimality over a continuum of portfolios",
  [EF + ":EfficientFrontier.min_volatility", EF + ":EfficientFrontier.max_quadratic_utility", EF + ":EfficientFrontier.efficient_risk", EF + ":EfficientFrontier.efficient_return"])
p("max_sharpe maximises the Sharpe ratio",
  "If the solver reports an optimum of the transformed problem, the returned weights satisfy the bounds and every added constraint, sum to 1, and no feasible portfolio has a higher Sharpe ratio.",
  "every expected return vector, covariance, risk-free rate, bounds, and every added linear/convex constraint",
  "the change of variables must be right for every constraint a user may add",
  [EF + ":EfficientFrontier.max_sharpe"])
p("Target-volatility check never rejects an achievable target",
  "efficient_risk raises the 'minimum volatility' error only for targets below the volatility of every fully invested portfolio (or every market-neutral one when market_neutral is set).",
  "every positive semidefinite covariance, every target, both neutrality settings",
  "for all covariance matrices including singular ones",
  [EF + ":EfficientFrontier.efficient_risk"])
p("Target-return check never rejects an achievable target",
  "efficient_return raises the 'maximum possible return' error only for targets exceeding the return of every portfolio satisfying the bounds, added constraints and requested weight sum.",
  "every problem data, both neutrality settings, every history",
  "for all data",
  [EF + ":EfficientFrontier.efficient_return", EF + ":EfficientFrontier._max_return"])
p("Mean-CVaR optimisation measures the true tail loss",
  "For EfficientCVaR, min_cvar and efficient_return return a portfolio of least conditional value at risk among admissible ones and report exactly its CVaR (the mean of the worst (1-beta) share of losses); efficient_risk returns a portfolio whose true CVaR is at most the reported value, which is at most the target.",
  "every return history of any length, every beta in [0,1), every optimal solver answer",
  "optimality over all portfolios, all histories",
  [CV + ":EfficientCVaR.min_cvar", CV + ":EfficientCVaR.efficient_return", CV + ":EfficientCVaR.efficient_risk", CV + ":EfficientCVaR.portfolio_performance"])
p("Mean-CDaR optimisation measures the true drawdown",
  "For EfficientCDaR, min_cdar and efficient_return return a portfolio of least conditional drawdown at risk (CVaR of the drawdown path of cumulative uncompounded returns starting at 0) and report exactly that value; efficient_risk's reported value bounds the true one and is at most the target.",
  "every return history of any length, every beta in [0,1)",
  "drawdown is defined by an unbounded recursion over time",
  [CD + ":EfficientCDaR.min_cdar", CD + ":EfficientCDaR._add_cdar_constraints", CD + ":EfficientCDaR.efficient_risk", CD + ":EfficientCDaR.portfolio_performance"])
p("Mean-semivariance optimisation measures the reported downside risk",
  "For EfficientSemivariance, min_semivariance and efficient_return minimise, and efficient_risk bounds by the target, exactly the semideviation that portfolio_performance reports, for normal and market-neutral portfolios.",
  "every return history, benchmark, frequency, neutrality setting",
  "depends on the combination of benchmark and neutrality",
  [SV + ":EfficientSemivariance.min_semivariance", SV + ":EfficientSemivariance.efficient_risk", SV + ":EfficientSemivariance.portfolio_performance"])
p("Sector constraints bound exactly the named sectors",
  "After add_sector_constraints, a weight vector is admissible iff it was before and, for every sector listed, the sum of weights of the tickers mapped to that sector is at most / at least the given bound; tickers without a sector are unaffected.",
  "every ticker list, sector mapping and bounds",
  "closures created in a loop; all mappings",
  [BO + ":BaseConvexOptimizer.add_sector_constraints"])
p("Market neutrality replaces the bounds and nothing else",
  "Asking for a market-neutral portfolio with long-only bounds replaces exactly the weight bounds by (-1,1) and keeps every constraint the user added; with some negative lower bound it keeps the user's bounds.",
  "every list of added constraints, every bounds",
  "positional deletion from a list whose content depends on the history",
  [EF + ":EfficientFrontier._make_weight_sum_constraint"])
# ---- plotting --------------------------------------------------------------
p("Plotted frontier points correspond to solved portfolios",
  "plot_efficient_frontier draws, for each parameter value whose optimisation succeeds, the return and risk of that portfolio, and draws nothing for values whose optimisation fails.",
  "every parameter range, every pattern of successes and failures",
  "all success/failure patterns",
  [PL + ":_plot_ef", PL + ":plot_efficient_frontier"])
p("Method selectors dispatch to the named estimator",
  "return_model and risk_matrix run exactly the estimator named by the method string and raise NotImplementedError for every other string.",
  "every string",
  "all strings",
  [ER + ":return_model", RM + ":risk_matrix"])
exec(open(os.path.join(os.path.dirname(os.path.abspath(__file__)), "props_extra.py")).read()) if os.path.exists(os.path.join(os.path.dirname(os.path.abspath(__file__)), "props_extra.py")) else None
with open(os.path.join(os.path.dirname(os.path.abspath(__file__)), "..", "properties.jsonl"), "w") as f:
    for x in P:
        f.write(json.dumps(x, ensure_ascii=False) + "\n")
print(len(P))
for x in P: print(x["id"], x["title"])
