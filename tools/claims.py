D = "Verif.Discrete."
c("C01", "proved", [D + "C01_greedy_books_balance"],
  "Holds for every finished call with positive prices and weights >= 0; C02 shows the call finishes.")
c("C02", "proved", [D + "C02_greedy_finishes", D + "C02_greedy_no_assertion"],
  "Exact arithmetic; the assertion could still trip through float rounding, which is not modelled.")
c("C03", "proved", [D + "C03_greedy_at_least_floor"], "")
c("C04", "partial", [D + "C04_stop_condition_partial", D + "C04_stop_condition_false"],
  "True up to ten assets; false beyond (12-asset witness) because the retry counter gives up after ten tries.")
c("C05", "proved", [D + "C05_greedy_long_short"], "")
c("C06", "proved", [D + "C06_lp_optimal"], "Solver contract: exact optimum of the stated integer program.")
c("C07", "partial", [D + "C07_order_independent_shorts_partial", D + "C07_greedy_order_independent_partial",
                     D + "C07_price_order_false", D + "C07_history_false"],
  "False of the code: lp_portfolio pairs weights and prices by position; negations proved with witnesses.")
c("C08", "partial", [D + "C08_validation_partial", D + "C08_stored", D + "C08_zero_short_ratio_false"],
  "Constructor validation proved; the last clause is false (short_ratio=0 accepted but not allocatable).")
B = "Verif.Base."
c("C09", "proved", [B + "C09_round_trip", B + "C09_missing_ticker"], "Tickers assumed distinct.")
c("C10", "proved", [B + "C10_clean_rounds_and_zeroes", B + "C10_clean_no_rounding", B + "C10_clean_errors",
                    B + "C10_clean_idempotent", B + "C10_idempotence_needs_multiple"],
  "Idempotence holds exactly when the cutoff is a multiple of the rounding unit (as with the defaults); witness otherwise.")
c("C11", "proved", [B + "C11_save_all_or_nothing"], "File-system failures are not modelled.")
c("C12", "partial", [B + "C12_per_asset_partial", B + "C12_single_pair_partial", B + "C12_array_pair_partial",
                     B + "C12_none_per_asset_partial", B + "C12_none_single_pair_partial", B + "C12_malformed_type_error",
                     B + "C12_two_assets_arrays_false", B + "C12_two_assets_none_false",
                     B + "C12_none_spellings_differ_false"],
  "False of the code with two assets, and None differs between spellings; witnesses proved. True otherwise.")
P = "Verif.Perf."
c("C13", "proved", [P + "C13_performance_array", P + "C13_performance_dict", P + "C13_performance_no_returns",
                    P + "C13_performance_dict_order", P + "C13_performance_none"], "")
H = "Verif.Hrp."
c("C14", "proved", [H + "C14_optimize", H + "C14_raw_allocation", H + "C14_single", H + "C14_optimize_errors"],
  "Oracle: scipy linkage returns a valid linkage matrix (at least two assets; scipy itself rejects one). Leaf order is proved a permutation.")
c("C15", "proved", [H + "C15_split_balance"], "")
c("C16", "proved", [H + "C16_scale_invariant", H + "C16_scale_invariant_returns"], "Exact arithmetic.")
C = "Verif.Cla."
c("C17", "proved", [C + "C17_init_optimal", C + "C17_init_error", C + "C17_init_no_wrong_answer"],
  "Float bounds (integer bounds: see C56).")
c("C18", "proved", [C + "C18_purge_num_err", C + "C18_purge_excess", C + "C18_purge_excess_short", C + "C18_solve", C + "C18_solve_first"], "")
c("C19", "proved", [C + "C19_max_sharpe", C + "C19_min_volatility", C + "C19_efficient_frontier", C + "C19_later_calls"], "")
c("C20", "proved", [C + "C20_free_weights", C + "C20_multiplier", C + "C20_multiplier_leaves", C + "C20_caseA_largest", C + "C20_caseB_largest",
                     C + "C20_free_stay_within", C + "C20_next_multiplier"],
  "How far this carries over to the stored turning points is C53.")
c("C21", "proved", [C + "C21_least_stored", C + "C21_global"], "")
c("C53", "partial", [C + "C20_step_partial", C + "C91_frontier_partial", C + "C53_frontier_efficient_false"],
  "False of the code: three-asset witness run. C91_frontier_partial covers runs in which no asset is bound.")
c("C54", "partial", [C + "C19_max_sharpe", C + "C54_max_sharpe_optimal_false"], "False of the code: three-asset witness run.")
c("C55", "partial", [C + "C55_failed_solve_reused_false"], "False of the code: equal expected returns.")
c("C56", "partial", [C + "C56_integer_bounds_false"], "False of the code: integer dtype truncates weights.")
L = "Verif.BL."
c("C22", "proved", [L + "C22_master_formula", L + "C22_repeatable"], "Contract: exact numpy.linalg.solve/lstsq (LinAlg.Sound).")
c("C23", "proved", [L + "C23_formula", L + "C23_valid", L + "C23_repeatable"], "Contract: LinAlg.Sound.")
c("C24", "proved", [L + "C24_consistent_views", L + "C24_certain_view", L + "C24_certain_views", L + "C24_full_confidence"], "")
c("C25", "partial", [L + "C25_weights_partial", L + "C25_risk_aversion_irrelevant", L + "C25_singular_raises_false",
                     L + "C25_singular_wrong_system_false", L + "C25_zero_sum_false"],
  "False of the code for a singular covariance (the fallback uses self._A instead of A) and for implied weights summing to zero (NaN).")
c("C26", "partial", [L + "C26_default_omega", L + "C26_idzorek", L + "C26_idzorek_rejects", L + "C26_monotone_partial",
                     L + "C26_zero_confidence", L + "C26_zero_confidence_false"],
  "Monotonicity fails at zero confidence (constant 1e6); everything else proved.")
c("C27", "proved", [L + "C27_absolute_views", L + "C27_unknown_ticker"], "")
c("C28", "proved", [L + "C28_scale_invariant", L + "C28_inverts_to_market"], "DataFrame covariance; pandas label alignment of DataFrame.dot is part of the model.")
c("C57", "proved", [L + "C57_accepted_is_wellformed", L + "C57_rejects", L + "C57_prior"], "")
c("C58", "proved", [L + "C58_performance", L + "C58_returned_weights", L + "C58_set_weights", L + "C58_no_weights", L + "C58_set_weights_only"], "")
c("C59", "proved", [L + "C59_scale_invariant", L + "C59_sign", L + "C59_value"], "Complete price series.")
R = "Verif.Returns."
c("C29", "proved", [R + "C29_returns_of_prices", R + "C29_prices_of_returns"], "Complete positive prices, returns above -1.")
c("C30", "partial", [R + "C30_cagr_partial", R + "C30_log_returns_false", R + "C30_no_data", R + "C30_scale_invariant",
                     R + "C30_missing", R + "C30_listed_partial", R + "C30_gap_false"],
  "Proved for simple returns, also of assets listed after the first day; false with log_returns=True, where log returns are "
  "compounded as simple ones, and for prices with a gap, where the change over the gap is lost.")
c("C31", "proved", [R + "C31_convex_combination", R + "C31_missing_values", R + "C31_ema_historical", R + "C31_span_refused"], "")
c("C32", "partial", [R + "C32_capm_default_partial", R + "C32_capm_market_partial", R + "C32_mkt_ticker_false"],
  "For universes without an asset called mkt and returns above -1. False of the code with such an asset: its column is overwritten and it gets no estimate.")
c("C33", "partial", [R + "C33_unchanged_partial", R + "C33_market_renamed_false"],
  "False of the code for market_prices with returns_data=True: the caller's market columns are renamed.")
K = "Verif.Risk."
c("C34", "partial", [K + "C34_fix_partial", K + "C34_unknown_method_false"],
  "Contract: exact symmetric eigendecomposition. An unknown method is accepted silently when the matrix passes the test.")
c("C35", "proved", [K + "C35_sample_cov", K + "C35_semicovariance_any", K + "C35_semicovariance", K + "C35_exp_cov",
                    K + "C35_any_data"], "")
c("C36", "proved", [K + "C36_cov_to_corr", K + "C36_corr_to_cov"], "")
c("C37", "partial", [K + "C37_single_factor_partial", K + "C37_constant_correlation",
                     K + "C37_constant_correlation_variances", K + "C37_manual", K + "C37_sklearn",
                     K + "C37_single_factor_intensity", K + "C37_constant_correlation_intensity", K + "C37_empty_rows",
                     K + "C37_unknown_target", K + "C37_single_factor_variance_false", K + "C37_zero_variance_false"],
  "False of the code for single_factor (divisor T, so variances differ from sample_cov) and for an asset of zero variance (NaN entries).")
c("C52", "proved", [K + "C52_risk_matrix", R + "C52_return_model"],
  "The estimators' default arguments are transcribed from their signatures in both model and statement, so a transcription slip would not show up as a failing proof; they were compared with the source by hand.")
c("C60", "proved", [K + "C60_spectral_nearest"], "Contract: exact symmetric eigendecomposition.")
O = "Verif.Obj."
c("C38", "partial", [O + "C38_formulas_partial", O + "C38_sharpe", O + "C38_negative", O + "C38_penalties",
                     O + "C38_convex", O + "C38_ex_post_variance_false"],
  "False of the code in one place: ex_post_tracking_error is documented as Var(r - r_b) but is the undivided sum of squares.")
V = "Verif.Convex."
c("C39", "partial", [V + "C39_weights_documented_partial", V + "C39_only_documented_partial", V + "C39_first_call_reaches",
                     V + "C39_first_return_reaches", V + "C39_repeat_false", V + "C39_name_clash_false"],
  "Over all call histories, copies and parameter changes. Left out and false of the code: user parameters bearing a library name, "
  "and a repeated convex_objective with weights_sum_to_one=False. Also left out: non-scalar objectives and values that are not constraints.")
c("C40", "proved", [V + "C40_add_refused_forever"], "")
c("C41", "partial", [V + "C41_retarget_partial", V + "C41_retarget_return_partial", V + "C41_neutrality_change", V + "C41_zero_return_false"],
  "Same side conditions as C39; refused calls and reports in between change nothing. efficient_return fails when the largest return is 0 (the cached value is taken for absent).")
c("C49", "proved", [V + "C49_sector_constraints", V + "C49_unmapped"], "")
c("C50", "proved", [V + "C50_weight_sum", V + "C50_neutral_bounds"], "C50_weight_sum holds for all user objects; C50_neutral_bounds over histories with usable user objects.")
c("C42", "partial", [V + "C42_min_volatility_partial", V + "C42_max_quadratic_utility_partial", V + "C42_efficient_risk_partial",
                     V + "C42_efficient_return_partial", V + "C42_rounded_bounds", V + "C42_rounded_sum", V + "C42_rounded_return",
                     V + "C42_rounded_vol", V + "C42_rounding_false"],
  "Exact for the solver's weights; the returned weights are these rounded to 16 decimals, which is false of sums (witness) and costs at most the stated amounts. "
  "Histories as in C39.")
c("C43", "partial", [V + "C43_max_sharpe_partial", V + "C43_affine_constraint_false"],
  "For constraints whose scaling by k is their homogeneous form, finite lower bounds and no added objectives. False of the code for affine constraints such as w[0] + 0.5 <= 1.")
c("C44", "partial", [V + "C44_least_volatility", V + "C44_achievable_partial", V + "C44_riskless_exists", V + "C44_singular_false",
                     V + "C44_hedge_false", V + "C44_neutral_false"],
  "Exact (both directions) for fully invested portfolios when some combination of assets has covariance 1 with every asset. "
  "False of the code for other singular covariance matrices and for market_neutral.")
c("C45", "partial", [V + "C45_achievable_partial", V + "C45_neutral_false", V + "C45_stale_cache_false"],
  "For fully invested portfolios over all histories. False of the code for market_neutral and after a user parameter has changed since the maximum was cached.")
c("C46", "partial", [V + "C46_min_cvar_partial", V + "C46_efficient_return_partial", V + "C46_efficient_risk_partial", V + "C46_rounded",
                     V + "tailMean_whole", V + "C46_no_returns_false"],
  "Exact for the solver's weights, over all histories as in C39; C46_rounded bounds the effect of rounding. Left out and false of the code: "
  "objects built without expected returns, whose portfolio_performance raises.")
c("C47", "partial", [V + "C47_min_cdar_partial", V + "C47_efficient_return_partial", V + "C47_efficient_risk_partial", V + "C47_rounded"],
  "Exact for the solver's weights, over all histories as in C39; C47_rounded bounds the effect of rounding.")
c("C48", "partial", [V + "C48_min_semivariance_partial", V + "C48_efficient_return_partial", V + "C48_efficient_risk_partial",
                     V + "C48_max_quadratic_utility_partial", V + "C48_rounded", V + "C48_neutral_risk_false", V + "C48_neutral_min_false"],
  "For fully invested portfolios, and market-neutral ones when the benchmark is 0. False of the code for market-neutral portfolios with another benchmark.")
c("C61", "partial", [V + "C61_others_partial", V + "C61_copy_false"],
  "False of the code for CVaR and CDaR: copies share the variables the risk is read from. Proved: weights, return and semideviation always, CVaR and CDaR as long as no solve happens in between.")
c("C51", "partial", [V + "C51_points_partial", V + "C51_return_partial", V + "C51_utility_partial", V + "C51_risk_partial", V + "C51_default_partial",
                     V + "C51_other_errors", V + "C51_stale_false", V + "C51_first_false", V + "C51_tail_false", V + "C51_cvar_false", V + "C51_default_false", V + "C51_default_apart", V + "C51_spacing", V + "C51_range_false"],
  "For EfficientFrontier objects and values that are solved or end in OptimizationError. False of the code for values refused with ValueError "
  "(the previous point is drawn again, or the plot raises if there is none), for CVaR and CDaR objects, for a default range that starts above the largest return by rounding, and for ef_param=\"risk\" without a range, which uses returns as volatilities.")
I = "Verif.Init."
c("C62", "partial", [I + "C62_refuses", I + "C62_accepts", I + "C62_covariance_only", I + "C62_types", I + "C62_sizes_partial",
                     I + "C62_wide_false", I + "C62_none_false", I + "C62_cla_columns", I + "C62_cla_false"],
  "False of the code for expected returns given as an array with several columns, for non-square matrices without expected returns, and for CLA, which compares no sizes.")
c("C63", "partial", [I + "C63_labels_partial", I + "C63_covariance_partial", I + "C63_positional", I + "C63_order_false", I + "C63_cla", I + "C63_hrp"],
  "True when labels agree in order or only one input carries them. False of the code otherwise: inputs are paired by position.")
c("C64", "partial", [I + "C64_days", I + "C64_sizes", I + "C64_sizes_cdar_partial", I + "C64_agree", I + "C64_none_false",
                     I + "C64_positional", I + "C64_names_false", I + "C64_wide_false"],
  "False of the code: EfficientCDaR refuses omitted expected returns, the column names of the returns are never used, and CDaR accepts expected returns with several columns.")
c("C65", "proved", [D + "C65_latest", D + "C65_refusals", D + "C65_allocation"], "Weights without NaN and a positive total.")
c("C66", "proved", [D + "C66_reported", D + "C66_reported_lp", D + "C66_zero", D + "C66_zero_lp", D + "C66_shares", D + "C66_shares_lp",
                    D + "C66_bound", D + "C66_bound_lp", D + "C66_empty"],
  "Contract for lp_portfolio: the solver's answers are optimal whole numbers.")
HO = "Verif.HrpObj."
c("C67", "proved", [HO + "C67_history", HO + "C67_history_covariance", HO + "C67_reported", HO + "C67_gaps", HO + "C67_frequency", HO + "C67_covariance",
                    HO + "C67_optimised", HO + "C67_agrees", HO + "C67_init"],
  "Every two assets share two days of returns; C67_gaps says what is reported otherwise. A covariance given besides returns is ignored.")
CO = "Verif.ClaObj."
c("C68", "proved", [CO + "C68_performance", CO + "C68_performance_none", CO + "C68_frontier", CO + "C68_order"],
  "Solvable = a first min_volatility returns; C55 shows what follows a failed solve. Numbers are real; the matrix inversion is arbitrary.")
c("C69", "partial", [CO + "C69_drawn", CO + "C69_plot_partial", CO + "C69_marker_false", CO + "C69_points_false"],
  "True unless min_volatility or a frontier with another number of points was asked for before. False of the code then: the mark is the last portfolio and the line the stored frontier.")
c("C70", "proved", [CO + "C70_units", CO + "C70_performance"],
  "Exact real numbers; contract for np.linalg.inv: answers are inverses and refusal does not depend on the unit.")
c("C71", "proved", [HO + "C71_returns", HO + "C71_covariance"], "The clustering itself is scipy's; the theorems say what it is given.")
c("C72", "proved", [HO + "C72_units", HO + "C72_order"], "Exact real numbers; for covariance matrices see C16.")
c("C73", "proved", [V + "C73_target_return", V + "C73_target_risk", V + "C73_utility", V + "C73_return_convex", V + "C73_risk_concave"],
  "Contract: what the solver reports as optima are optima. Positive semidefinite covariance; a market-neutral semivariance optimiser has benchmark 0 (see C48). riskSlack and retSlack are the effect of rounding.")
c("C74", "partial", [V + "C74_least_risk", V + "C74_slack_target", V + "C74_risk_of_return", V + "C74_return_of_risk", V + "C74_utility", V + "C74_sharpe_partial"],
  "As C73. Partial because of the Sharpe ratios: finite lower bounds and added constraints that scale with the portfolio, as in C43, which is false of the code otherwise.")
c("C75", "partial", [V + "C75_min_volatility", V + "C75_efficient_return", V + "C75_max_quadratic_utility", V + "C75_max_sharpe_partial", V + "sameChoice_reorder"],
  "Exact equality of the returned weights. max_sharpe as in C43: finite lower bounds and constraints that scale. Contract: what the solvers report as optima are optima.")
c("C76", "partial", [V + "C76_traced", V + "C76_history", V + "C76_report", V + "C76_no_returns", V + "C76_rate_partial", V + "C76_rate_false"],
  "The portfolio is always the last one. The rate given is used only if every max_sharpe before was called with it: false of the code otherwise, the rate of that call wins.")
c("C77", "proved", [V + "C77_disabled", V + "C77_argument", V + "C77_world"], "The refusals are listed in Spec/Refused.lean.")
c("C78", "partial", [V + "C78_one_method", V + "C78_refused", V + "C78_harmless_false"],
  "Refusal holds for every history. Harmlessness is false of the code: the refused call has already replaced the objective, so afterwards every optimisation method raises on the object.")
c("C79", "partial", [V + "C79_request_partial", V + "C79_weights_partial", V + "C79_bounds_false", V + "C79_short_false", V + "C79_success_false", V + "C79_added_false"],
  "Holds for objects never asked for a market-neutral portfolio (or with a negative lower bound), for the constraints given in the call, and if scipy reports success. False otherwise: a market-neutral request, also a refused one, leaves bounds -1..1 behind; constraints added to the object are not passed on; scipy's success flag is not looked at.")
c("C80", "partial", [V + "C80_outcome_partial", V + "C80_refusal", V + "C80_short_false"],
  "For finite lower bounds and added constraints that scale, as in C43, and a solver that solves what can be solved. False of the code for short positions: the rate is compared with the assets, so rates a long-short portfolio beats are refused.")
c("C81", "partial", [R + "C81_warned_iff", R + "C81_returns_iff", R + "C81_one_asset", R + "C81_silent_partial", R + "C81_blank_false", R + "C81_start_false"],
  "The exact condition is proved. False of the code for days on which no asset is quoted - so a single asset is never warned about - and for quotes before the first pair of consecutive ones. capm_return without a market index.")
c("C82", "partial", [K + "C82_sample_cov", K + "C82_exp_cov", K + "C82_semicovariance", K + "C82_manual", K + "C82_single_factor", K + "C82_constant_correlation", K + "C82_prices", K + "C82_exp_cov_order_false"],
  "At least two days (one for semicovariance) and a frequency that is not negative; the targets for data they are defined on (varying market, varying assets). The order of the days matters for exp_cov, by design: false there. Returns restated: not for the two estimates computed by sklearn, whose contract says nothing about it; prices restated: all methods.")
c("C83", "partial", [K + "C83_sample_cov_partial", K + "C83_exp_cov_partial", K + "C83_semicovariance_partial", K + "C83_semivariance_partial", K + "C83_semicovariance_false", K + "C83_single_factor_false"],
  "Holds for sample_cov and exp_cov (span above 1) if the pairwise estimates form a positive semidefinite matrix; otherwise they are repaired, C34. In exp_cov each asset's average is over its own known days. False of semicovariance, which divides by all days: the exact reduction is proved. False of the single-factor target, where missing returns count as 0. The constant-correlation target and the sklearn estimates with missing returns are not treated.")
c("C84", "partial", [L + "C84_returns", L + "C84_cov", L + "C84_weights", L + "C84_default", L + "C84_idzorek_partial", L + "C84_zero_confidence_false", L + "C84_redundant_false"],
  "If the view matrix P tau S P' + Omega is singular and least squares are used, all views must be multiplied by numbers of the same size: false otherwise, for certain views that contradict each other. For the weights a covariance that can be inverted and positive risk aversions. False of Idzorek's method with a zero confidence, whose uncertainty is 1e6 in any unit. Exact arithmetic.")
c("C85", "partial", [V + "C85_outcome_partial", V + "C85_return_partial", V + "C85_sharpe_partial", V + "C85_again_partial", V + "C85_again_return_partial", V + "C85_cvar_false", V + "C85_cdar_false", V + "C85_semi_false"],
  "For a solver that solves what can be solved, first optimizations and further targets of one method (of EfficientFrontier.efficient_return those up to the cached largest return), arguments that pass the checks (for the checks of EfficientFrontier see C44 and C45), and market-neutral semivariance with benchmark 0; max_sharpe without added objectives, with constraints that scale and no portfolio without risk. False of the code for negative CVaR targets, negative return targets of EfficientCDaR, and return targets of EfficientSemivariance only a long-short portfolio reaches.")
c("C86", "partial", [L + "C86_tau_partial", L + "C86_cov", L + "C86_cov_false", L + "C86_zero_confidence_false"],
  "Posterior returns and weights, also where the linear systems are singular. False of the posterior covariance, whose excess over the covariance is proportional to tau, and of a zero confidence, whose uncertainty is 1e6 for every tau. Exact arithmetic.")
c("C87", "partial", [L + "C87_compromise", L + "C87_fit", L + "C87_average", L + "C87_idzorek_partial", L + "C87_default", L + "C87_more_certain", L + "C87_more_confident", L + "C87_zero_confidence_false"],
  "Positive definite covariance and uncertainty for the first two; for the rest the view matrix P tau S P' + Omega can be inverted, so certain views are covered. False for zero confidence, which can move the posterior half the way to the view. Exact arithmetic.")
c("C88", "proved", [L + "C88_informed", L + "C88_batches"],
  "Reducing the covariance: positive semidefinite covariance and uncertainties with view matrices that can be inverted. Batches: positive definite ones. Exact arithmetic.")
G = "Verif.Charts."
c("C89", "partial", [G + "C89_weights", G + "C89_weights_chart", G + "C89_covariance_partial", G + "C89_columns_false", G + "C89_array", G + "C89_array_false", G + "C89_tree", G + "C89_tree_keeps", G + "C89_tree_optimises", G + "C89_tree_weights", G + "C89_assets", G + "C89_assets_false", G + "C89_saved_partial", G + "C89_saved_false", G + "C89_displayed"],
  "Weights and trees in full (contract: scipy's linkage is one of the assets). False of the code: arrays raise with the default arguments of plot_covariance; columns labelled differently from rows get the names of the rows; axes on a figure that is not the current one, where another figure is saved; assets of EfficientSemivariance, drawn at risk 0. NaN weights are not treated.")
c("C90", "partial", [V + "C90_leaves", V + "C90_defined", V + "C90_update", V + "C90_boolean_false"],
  "For objects whose constraints are cvxpy constraints. False of the code with a Boolean among them, which add_constraint accepts: AttributeError.")
c("C91", "partial", [C + "C91_turning_points_partial", C + "C91_min_volatility_partial", C + "C91_min_volatility_later_partial", C + "C91_frontier_partial", C + "C53_frontier_efficient_false"],
  "For problems without ties (nowhere on the frontier two assets at a bound and indifferent at once, and at its end none), exact arithmetic and an exact inverse. Turning points that sum to one only within the tolerance of 1e-9 are missing, and problems with ties. The last sentence of the statement needs its condition: C53.")
c("C92", "partial", [C + "C92_solve_ends_partial", C + "C92_min_volatility_partial", C + "C92_flat_false"],
  "For problems without ties, in which each free asset is traded as the multiplier changes, with lower bounds below the upper ones. False of the code where a free asset is not traded (C92_flat_false): _compute_lambda returns None, which _solve compares with a number, TypeError. Contract: numpy.linalg.inv inverts every matrix that can be inverted. Exact arithmetic.")
c("C93", "proved", [K + "C93_support", K + "C93_full_days", K + "C93_incomplete_days", K + "C93_prices", K + "C93_too_short"],
  "Contract of sklearn's fast_mcd: if it answers, with the empirical covariance of some rows (which ones, and for which inputs it answers, is not modelled); ValueError with fewer than two rows.")
c("C94", "proved", [D + "C94_lp_long_short", D + "C07_order_independent_shorts_partial"],
  "Solver contract: exact optimum of the stated integer program. About calls that return; tickers are distinct.")
