{
 "claims": [
  {
   "property": "C01",
   "status": "proved",
   "theorems": [
    "Verif.Discrete.C01_greedy_books_balance"
   ],
   "note": "Holds for every finished call with positive prices and weights >= 0; C02 shows the call finishes."
  },
  {
   "property": "C02",
   "status": "proved",
   "theorems": [
    "Verif.Discrete.C02_greedy_finishes",
    "Verif.Discrete.C02_greedy_no_assertion"
   ],
   "note": "Exact arithmetic; the assertion could still trip through float rounding, which is not modelled."
  },
  {
   "property": "C03",
   "status": "proved",
   "theorems": [
    "Verif.Discrete.C03_greedy_at_least_floor"
   ],
   "note": ""
  },
  {
   "property": "C04",
   "status": "partial",
   "theorems": [
    "Verif.Discrete.C04_stop_condition_partial",
    "Verif.Discrete.C04_stop_condition_false"
   ],
   "note": "True up to ten assets; false beyond (12-asset witness) because the retry counter gives up after ten tries."
  },
  {
   "property": "C05",
   "status": "proved",
   "theorems": [
    "Verif.Discrete.C05_greedy_long_short"
   ],
   "note": ""
  },
  {
   "property": "C06",
   "status": "proved",
   "theorems": [
    "Verif.Discrete.C06_lp_optimal"
   ],
   "note": "Solver contract: exact optimum of the stated integer program."
  },
  {
   "property": "C07",
   "status": "partial",
   "theorems": [
    "Verif.Discrete.C07_order_independent_shorts_partial",
    "Verif.Discrete.C07_greedy_order_independent_partial",
    "Verif.Discrete.C07_price_order_false",
    "Verif.Discrete.C07_history_false"
   ],
   "note": "False of the code: lp_portfolio pairs weights and prices by position; negations proved with witnesses."
  },
  {
   "property": "C08",
   "status": "partial",
   "theorems": [
    "Verif.Discrete.C08_validation_partial",
    "Verif.Discrete.C08_stored",
    "Verif.Discrete.C08_zero_short_ratio_false"
   ],
   "note": "Constructor validation proved; the last clause is false (short_ratio=0 accepted but not allocatable)."
  },
  {
   "property": "C09",
   "status": "proved",
   "theorems": [
    "Verif.Base.C09_round_trip",
    "Verif.Base.C09_missing_ticker"
   ],
   "note": "Tickers assumed distinct."
  },
  {
   "property": "C10",
   "status": "proved",
   "theorems": [
    "Verif.Base.C10_clean_rounds_and_zeroes",
    "Verif.Base.C10_clean_no_rounding",
    "Verif.Base.C10_clean_errors",
    "Verif.Base.C10_clean_idempotent",
    "Verif.Base.C10_idempotence_needs_multiple"
   ],
   "note": "Idempotence holds exactly when the cutoff is a multiple of the rounding unit (as with the defaults); witness otherwise."
  },
  {
   "property": "C11",
   "status": "proved",
   "theorems": [
    "Verif.Base.C11_save_all_or_nothing"
   ],
   "note": "File-system failures are not modelled."
  },
  {
   "property": "C12",
   "status": "partial",
   "theorems": [
    "Verif.Base.C12_per_asset_partial",
    "Verif.Base.C12_single_pair_partial",
    "Verif.Base.C12_array_pair_partial",
    "Verif.Base.C12_none_per_asset_partial",
    "Verif.Base.C12_none_single_pair_partial",
    "Verif.Base.C12_malformed_type_error",
    "Verif.Base.C12_two_assets_arrays_false",
    "Verif.Base.C12_two_assets_none_false",
    "Verif.Base.C12_none_spellings_differ_false"
   ],
   "note": "False of the code with two assets, and None differs between spellings; witnesses proved. True otherwise."
  },
  {
   "property": "C13",
   "status": "proved",
   "theorems": [
    "Verif.Perf.C13_performance_array",
    "Verif.Perf.C13_performance_dict",
    "Verif.Perf.C13_performance_no_returns",
    "Verif.Perf.C13_performance_dict_order",
    "Verif.Perf.C13_performance_none"
   ],
   "note": ""
  },
  {
   "property": "C14",
   "status": "proved",
   "theorems": [
    "Verif.Hrp.C14_optimize",
    "Verif.Hrp.C14_raw_allocation",
    "Verif.Hrp.C14_single",
    "Verif.Hrp.C14_optimize_errors"
   ],
   "note": "Oracle: scipy linkage returns a valid linkage matrix (at least two assets; scipy itself rejects one). Leaf order is proved a permutation."
  },
  {
   "property": "C15",
   "status": "proved",
   "theorems": [
    "Verif.Hrp.C15_split_balance"
   ],
   "note": ""
  },
  {
   "property": "C16",
   "status": "proved",
   "theorems": [
    "Verif.Hrp.C16_scale_invariant",
    "Verif.Hrp.C16_scale_invariant_returns"
   ],
   "note": "Exact arithmetic."
  },
  {
   "property": "C17",
   "status": "proved",
   "theorems": [
    "Verif.Cla.C17_init_optimal",
    "Verif.Cla.C17_init_error",
    "Verif.Cla.C17_init_no_wrong_answer"
   ],
   "note": "Float bounds (integer bounds: see C56)."
  },
  {
   "property": "C18",
   "status": "proved",
   "theorems": [
    "Verif.Cla.C18_purge_num_err",
    "Verif.Cla.C18_purge_excess",
    "Verif.Cla.C18_purge_excess_short",
    "Verif.Cla.C18_solve",
    "Verif.Cla.C18_solve_first"
   ],
   "note": ""
  },
  {
   "property": "C19",
   "status": "proved",
   "theorems": [
    "Verif.Cla.C19_max_sharpe",
    "Verif.Cla.C19_min_volatility",
    "Verif.Cla.C19_efficient_frontier",
    "Verif.Cla.C19_later_calls"
   ],
   "note": ""
  },
  {
   "property": "C20",
   "status": "proved",
   "theorems": [
    "Verif.Cla.C20_free_weights",
    "Verif.Cla.C20_multiplier",
    "Verif.Cla.C20_multiplier_leaves",
    "Verif.Cla.C20_caseA_largest",
    "Verif.Cla.C20_caseB_largest",
    "Verif.Cla.C20_free_stay_within",
    "Verif.Cla.C20_next_multiplier"
   ],
   "note": "How far this carries over to the stored turning points is C53."
  },
  {
   "property": "C21",
   "status": "proved",
   "theorems": [
    "Verif.Cla.C21_least_stored",
    "Verif.Cla.C21_global"
   ],
   "note": ""
  },
  {
   "property": "C53",
   "status": "partial",
   "theorems": [
    "Verif.Cla.C20_step_partial",
    "Verif.Cla.C91_frontier_partial",
    "Verif.Cla.C53_frontier_efficient_false"
   ],
   "note": "False of the code: three-asset witness run. C91_frontier_partial covers runs in which no asset is bound."
  },
  {
   "property": "C54",
   "status": "partial",
   "theorems": [
    "Verif.Cla.C19_max_sharpe",
    "Verif.Cla.C54_max_sharpe_optimal_false"
   ],
   "note": "False of the code: three-asset witness run."
  },
  {
   "property": "C55",
   "status": "partial",
   "theorems": [
    "Verif.Cla.C55_failed_solve_reused_false"
   ],
   "note": "False of the code: equal expected returns."
  },
  {
   "property": "C56",
   "status": "partial",
   "theorems": [
    "Verif.Cla.C56_integer_bounds_false"
   ],
   "note": "False of the code: integer dtype truncates weights."
  },
  {
   "property": "C22",
   "status": "proved",
   "theorems": [
    "Verif.BL.C22_master_formula",
    "Verif.BL.C22_repeatable"
   ],
   "note": "Contract: exact numpy.linalg.solve/lstsq (LinAlg.Sound)."
  },
  {
   "property": "C23",
   "status": "proved",
   "theorems": [
    "Verif.BL.C23_formula",
    "Verif.BL.C23_valid",
    "Verif.BL.C23_repeatable"
   ],
   "note": "Contract: LinAlg.Sound."
  },
  {
   "property": "C24",
   "status": "proved",
   "theorems": [
    "Verif.BL.C24_consistent_views",
    "Verif.BL.C24_certain_view",
    "Verif.BL.C24_certain_views",
    "Verif.BL.C24_full_confidence"
   ],
   "note": ""
  },
  {
   "property": "C25",
   "status": "partial",
   "theorems": [
    "Verif.BL.C25_weights_partial",
    "Verif.BL.C25_risk_aversion_irrelevant",
    "Verif.BL.C25_singular_raises_false",
    "Verif.BL.C25_singular_wrong_system_false",
    "Verif.BL.C25_zero_sum_false"
   ],
   "note": "False of the code for a singular covariance (the fallback uses self._A instead of A) and for implied weights summing to zero (NaN)."
  },
  {
   "property": "C26",
   "status": "partial",
   "theorems": [
    "Verif.BL.C26_default_omega",
    "Verif.BL.C26_idzorek",
    "Verif.BL.C26_idzorek_rejects",
    "Verif.BL.C26_monotone_partial",
    "Verif.BL.C26_zero_confidence",
    "Verif.BL.C26_zero_confidence_false"
   ],
   "note": "Monotonicity fails at zero confidence (constant 1e6); everything else proved."
  },
  {
   "property": "C27",
   "status": "proved",
   "theorems": [
    "Verif.BL.C27_absolute_views",
    "Verif.BL.C27_unknown_ticker"
   ],
   "note": ""
  },
  {
   "property": "C28",
   "status": "proved",
   "theorems": [
    "Verif.BL.C28_scale_invariant",
    "Verif.BL.C28_inverts_to_market"
   ],
   "note": "DataFrame covariance; pandas label alignment of DataFrame.dot is part of the model."
  },
  {
   "property": "C57",
   "status": "proved",
   "theorems": [
    "Verif.BL.C57_accepted_is_wellformed",
    "Verif.BL.C57_rejects",
    "Verif.BL.C57_prior"
   ],
   "note": ""
  },
  {
   "property": "C58",
   "status": "proved",
   "theorems": [
    "Verif.BL.C58_performance",
    "Verif.BL.C58_returned_weights",
    "Verif.BL.C58_set_weights",
    "Verif.BL.C58_no_weights",
    "Verif.BL.C58_set_weights_only"
   ],
   "note": ""
  },
  {
   "property": "C59",
   "status": "proved",
   "theorems": [
    "Verif.BL.C59_scale_invariant",
    "Verif.BL.C59_sign",
    "Verif.BL.C59_value"
   ],
   "note": "Complete price series."
  },
  {
   "property": "C29",
   "status": "proved",
   "theorems": [
    "Verif.Returns.C29_returns_of_prices",
    "Verif.Returns.C29_prices_of_returns"
   ],
   "note": "Complete positive prices, returns above -1."
  },
  {
   "property": "C30",
   "status": "partial",
   "theorems": [
    "Verif.Returns.C30_cagr_partial",
    "Verif.Returns.C30_log_returns_false",
    "Verif.Returns.C30_no_data",
    "Verif.Returns.C30_scale_invariant",
    "Verif.Returns.C30_missing",
    "Verif.Returns.C30_listed_partial",
    "Verif.Returns.C30_gap_false"
   ],
   "note": "Proved for simple returns, also of assets listed after the first day; false with log_returns=True, where log returns are compounded as simple ones, and for prices with a gap, where the change over the gap is lost."
  },
  {
   "property": "C31",
   "status": "proved",
   "theorems": [
    "Verif.Returns.C31_convex_combination",
    "Verif.Returns.C31_missing_values",
    "Verif.Returns.C31_ema_historical",
    "Verif.Returns.C31_span_refused"
   ],
   "note": ""
  },
  {
   "property": "C32",
   "status": "partial",
   "theorems": [
    "Verif.Returns.C32_capm_default_partial",
    "Verif.Returns.C32_capm_market_partial",
    "Verif.Returns.C32_mkt_ticker_false"
   ],
   "note": "For universes without an asset called mkt and returns above -1. False of the code with such an asset: its column is overwritten and it gets no estimate."
  },
  {
   "property": "C33",
   "status": "partial",
   "theorems": [
    "Verif.Returns.C33_unchanged_partial",
    "Verif.Returns.C33_market_renamed_false"
   ],
   "note": "False of the code for market_prices with returns_data=True: the caller's market columns are renamed."
  },
  {
   "property": "C34",
   "status": "partial",
   "theorems": [
    "Verif.Risk.C34_fix_partial",
    "Verif.Risk.C34_unknown_method_false"
   ],
   "note": "Contract: exact symmetric eigendecomposition. An unknown method is accepted silently when the matrix passes the test."
  },
  {
   "property": "C35",
   "status": "proved",
   "theorems": [
    "Verif.Risk.C35_sample_cov",
    "Verif.Risk.C35_semicovariance_any",
    "Verif.Risk.C35_semicovariance",
    "Verif.Risk.C35_exp_cov",
    "Verif.Risk.C35_any_data"
   ],
   "note": ""
  },
  {
   "property": "C36",
   "status": "proved",
   "theorems": [
    "Verif.Risk.C36_cov_to_corr",
    "Verif.Risk.C36_corr_to_cov"
   ],
   "note": ""
  },
  {
   "property": "C37",
   "status": "partial",
   "theorems": [
    "Verif.Risk.C37_single_factor_partial",
    "Verif.Risk.C37_constant_correlation",
    "Verif.Risk.C37_constant_correlation_variances",
    "Verif.Risk.C37_manual",
    "Verif.Risk.C37_sklearn",
    "Verif.Risk.C37_single_factor_intensity",
    "Verif.Risk.C37_constant_correlation_intensity",
    "Verif.Risk.C37_empty_rows",
    "Verif.Risk.C37_unknown_target",
    "Verif.Risk.C37_single_factor_variance_false",
    "Verif.Risk.C37_zero_variance_false"
   ],
   "note": "False of the code for single_factor (divisor T, so variances differ from sample_cov) and for an asset of zero variance (NaN entries)."
  },
  {
   "property": "C52",
   "status": "proved",
   "theorems": [
    "Verif.Risk.C52_risk_matrix",
    "Verif.Returns.C52_return_model"
   ],
   "note": "The estimators' default arguments are transcribed from their signatures in both model and statement, so a transcription slip would not show up as a failing proof; they were compared with the source by hand."
  },
  {
   "property": "C60",
   "status": "proved",
   "theorems": [
    "Verif.Risk.C60_spectral_nearest"
   ],
   "note": "Contract: exact symmetric eigendecomposition."
  },
  {
   "property": "C38",
   "status": "partial",
   "theorems": [
    "Verif.Obj.C38_formulas_partial",
    "Verif.Obj.C38_sharpe",
    "Verif.Obj.C38_negative",
    "Verif.Obj.C38_penalties",
    "Verif.Obj.C38_convex",
    "Verif.Obj.C38_ex_post_variance_false"
   ],
   "note": "False of the code in one place: ex_post_tracking_error is documented as Var(r - r_b) but is the undivided sum of squares."
  },
  {
   "property": "C39",
   "status": "partial",
   "theorems": [
    "Verif.Convex.C39_weights_documented_partial",
    "Verif.Convex.C39_only_documented_partial",
    "Verif.Convex.C39_first_call_reaches",
    "Verif.Convex.C39_first_return_reaches",
    "Verif.Convex.C39_repeat_false",
    "Verif.Convex.C39_name_clash_false"
   ],
   "note": "Over all call histories, copies and parameter changes. Left out and false of the code: user parameters bearing a library name, and a repeated convex_objective with weights_sum_to_one=False. Also left out: non-scalar objectives and values that are not constraints."
  },
  {
   "property": "C40",
   "status": "proved",
   "theorems": [
    "Verif.Convex.C40_add_refused_forever"
   ],
   "note": ""
  },
  {
   "property": "C41",
   "status": "partial",
   "theorems": [
    "Verif.Convex.C41_retarget_partial",
    "Verif.Convex.C41_retarget_return_partial",
    "Verif.Convex.C41_neutrality_change",
    "Verif.Convex.C41_zero_return_false"
   ],
   "note": "Same side conditions as C39; refused calls and reports in between change nothing. efficient_return fails when the largest return is 0 (the cached value is taken for absent)."
  },
  {
   "property": "C49",
   "status": "proved",
   "theorems": [
    "Verif.Convex.C49_sector_constraints",
    "Verif.Convex.C49_unmapped"
   ],
   "note": ""
  },
  {
   "property": "C50",
   "status": "proved",
   "theorems": [
    "Verif.Convex.C50_weight_sum",
    "Verif.Convex.C50_neutral_bounds"
   ],
   "note": "C50_weight_sum holds for all user objects; C50_neutral_bounds over histories with usable user objects."
  },
  {
   "property": "C42",
   "status": "partial",
   "theorems": [
    "Verif.Convex.C42_min_volatility_partial",
    "Verif.Convex.C42_max_quadratic_utility_partial",
    "Verif.Convex.C42_efficient_risk_partial",
    "Verif.Convex.C42_efficient_return_partial",
    "Verif.Convex.C42_rounded_bounds",
    "Verif.Convex.C42_rounded_sum",
    "Verif.Convex.C42_rounded_return",
    "Verif.Convex.C42_rounded_vol",
    "Verif.Convex.C42_rounding_false"
   ],
   "note": "Exact for the solver's weights; the returned weights are these rounded to 16 decimals, which is false of sums (witness) and costs at most the stated amounts. Histories as in C39."
  },
  {
   "property": "C43",
   "status": "partial",
   "theorems": [
    "Verif.Convex.C43_max_sharpe_partial",
    "Verif.Convex.C43_affine_constraint_false"
   ],
   "note": "For constraints whose scaling by k is their homogeneous form, finite lower bounds and no added objectives. False of the code for affine constraints such as w[0] + 0.5 <= 1."
  },
  {
   "property": "C44",
   "status": "partial",
   "theorems": [
    "Verif.Convex.C44_least_volatility",
    "Verif.Convex.C44_achievable_partial",
    "Verif.Convex.C44_riskless_exists",
    "Verif.Convex.C44_singular_false",
    "Verif.Convex.C44_hedge_false",
    "Verif.Convex.C44_neutral_false"
   ],
   "note": "Exact (both directions) for fully invested portfolios when some combination of assets has covariance 1 with every asset. False of the code for other singular covariance matrices and for market_neutral."
  },
  {
   "property": "C45",
   "status": "partial",
   "theorems": [
    "Verif.Convex.C45_achievable_partial",
    "Verif.Convex.C45_neutral_false",
    "Verif.Convex.C45_stale_cache_false"
   ],
   "note": "For fully invested portfolios over all histories. False of the code for market_neutral and after a user parameter has changed since the maximum was cached."
  },
  {
   "property": "C46",
   "status": "partial",
   "theorems": [
    "Verif.Convex.C46_min_cvar_partial",
    "Verif.Convex.C46_efficient_return_partial",
    "Verif.Convex.C46_efficient_risk_partial",
    "Verif.Convex.C46_rounded",
    "Verif.Convex.tailMean_whole",
    "Verif.Convex.C46_no_returns_false"
   ],
   "note": "Exact for the solver's weights, over all histories as in C39; C46_rounded bounds the effect of rounding. Left out and false of the code: objects built without expected returns, whose portfolio_performance raises."
  },
  {
   "property": "C47",
   "status": "partial",
   "theorems": [
    "Verif.Convex.C47_min_cdar_partial",
    "Verif.Convex.C47_efficient_return_partial",
    "Verif.Convex.C47_efficient_risk_partial",
    "Verif.Convex.C47_rounded"
   ],
   "note": "Exact for the solver's weights, over all histories as in C39; C47_rounded bounds the effect of rounding."
  },
  {
   "property": "C48",
   "status": "partial",
   "theorems": [
    "Verif.Convex.C48_min_semivariance_partial",
    "Verif.Convex.C48_efficient_return_partial",
    "Verif.Convex.C48_efficient_risk_partial",
    "Verif.Convex.C48_max_quadratic_utility_partial",
    "Verif.Convex.C48_rounded",
    "Verif.Convex.C48_neutral_risk_false",
    "Verif.Convex.C48_neutral_min_false"
   ],
   "note": "For fully invested portfolios, and market-neutral ones when the benchmark is 0. False of the code for market-neutral portfolios with another benchmark."
  },
  {
   "property": "C61",
   "status": "partial",
   "theorems": [
    "Verif.Convex.C61_others_partial",
    "Verif.Convex.C61_copy_false"
   ],
   "note": "False of the code for CVaR and CDaR: copies share the variables the risk is read from. Proved: weights, return and semideviation always, CVaR and CDaR as long as no solve happens in between."
  },
  {
   "property": "C51",
   "status": "partial",
   "theorems": [
    "Verif.Convex.C51_points_partial",
    "Verif.Convex.C51_return_partial",
    "Verif.Convex.C51_utility_partial",
    "Verif.Convex.C51_risk_partial",
    "Verif.Convex.C51_default_partial",
    "Verif.Convex.C51_other_errors",
    "Verif.Convex.C51_stale_false",
    "Verif.Convex.C51_first_false",
    "Verif.Convex.C51_tail_false",
    "Verif.Convex.C51_cvar_false",
    "Verif.Convex.C51_default_false",
    "Verif.Convex.C51_default_apart",
    "Verif.Convex.C51_spacing",
    "Verif.Convex.C51_range_false"
   ],
   "note": "For EfficientFrontier objects and values that are solved or end in OptimizationError. False of the code for values refused with ValueError (the previous point is drawn again, or the plot raises if there is none), for CVaR and CDaR objects, for a default range that starts above the largest return by rounding, and for ef_param=\"risk\" without a range, which uses returns as volatilities."
  },
  {
   "property": "C62",
   "status": "partial",
   "theorems": [
    "Verif.Init.C62_refuses",
    "Verif.Init.C62_accepts",
    "Verif.Init.C62_covariance_only",
    "Verif.Init.C62_types",
    "Verif.Init.C62_sizes_partial",
    "Verif.Init.C62_wide_false",
    "Verif.Init.C62_none_false",
    "Verif.Init.C62_cla_columns",
    "Verif.Init.C62_cla_false"
   ],
   "note": "False of the code for expected returns given as an array with several columns, for non-square matrices without expected returns, and for CLA, which compares no sizes."
  },
  {
   "property": "C63",
   "status": "partial",
   "theorems": [
    "Verif.Init.C63_labels_partial",
    "Verif.Init.C63_covariance_partial",
    "Verif.Init.C63_positional",
    "Verif.Init.C63_order_false",
    "Verif.Init.C63_cla",
    "Verif.Init.C63_hrp"
   ],
   "note": "True when labels agree in order or only one input carries them. False of the code otherwise: inputs are paired by position."
  },
  {
   "property": "C64",
   "status": "partial",
   "theorems": [
    "Verif.Init.C64_days",
    "Verif.Init.C64_sizes",
    "Verif.Init.C64_sizes_cdar_partial",
    "Verif.Init.C64_agree",
    "Verif.Init.C64_none_false",
    "Verif.Init.C64_positional",
    "Verif.Init.C64_names_false",
    "Verif.Init.C64_wide_false"
   ],
   "note": "False of the code: EfficientCDaR refuses omitted expected returns, the column names of the returns are never used, and CDaR accepts expected returns with several columns."
  },
  {
   "property": "C65",
   "status": "proved",
   "theorems": [
    "Verif.Discrete.C65_latest",
    "Verif.Discrete.C65_refusals",
    "Verif.Discrete.C65_allocation"
   ],
   "note": "Weights without NaN and a positive total."
  },
  {
   "property": "C66",
   "status": "proved",
   "theorems": [
    "Verif.Discrete.C66_reported",
    "Verif.Discrete.C66_reported_lp",
    "Verif.Discrete.C66_zero",
    "Verif.Discrete.C66_zero_lp",
    "Verif.Discrete.C66_shares",
    "Verif.Discrete.C66_shares_lp",
    "Verif.Discrete.C66_bound",
    "Verif.Discrete.C66_bound_lp",
    "Verif.Discrete.C66_empty"
   ],
   "note": "Contract for lp_portfolio: the solver's answers are optimal whole numbers."
  },
  {
   "property": "C67",
   "status": "proved",
   "theorems": [
    "Verif.HrpObj.C67_history",
    "Verif.HrpObj.C67_history_covariance",
    "Verif.HrpObj.C67_reported",
    "Verif.HrpObj.C67_gaps",
    "Verif.HrpObj.C67_frequency",
    "Verif.HrpObj.C67_covariance",
    "Verif.HrpObj.C67_optimised",
    "Verif.HrpObj.C67_agrees",
    "Verif.HrpObj.C67_init"
   ],
   "note": "Every two assets share two days of returns; C67_gaps says what is reported otherwise. A covariance given besides returns is ignored."
  },
  {
   "property": "C68",
   "status": "proved",
   "theorems": [
    "Verif.ClaObj.C68_performance",
    "Verif.ClaObj.C68_performance_none",
    "Verif.ClaObj.C68_frontier",
    "Verif.ClaObj.C68_order"
   ],
   "note": "Solvable = a first min_volatility returns; C55 shows what follows a failed solve. Numbers are real; the matrix inversion is arbitrary."
  },
  {
   "property": "C69",
   "status": "partial",
   "theorems": [
    "Verif.ClaObj.C69_drawn",
    "Verif.ClaObj.C69_plot_partial",
    "Verif.ClaObj.C69_marker_false",
    "Verif.ClaObj.C69_points_false"
   ],
   "note": "True unless min_volatility or a frontier with another number of points was asked for before. False of the code then: the mark is the last portfolio and the line the stored frontier."
  },
  {
   "property": "C70",
   "status": "proved",
   "theorems": [
    "Verif.ClaObj.C70_units",
    "Verif.ClaObj.C70_performance"
   ],
   "note": "Exact real numbers; contract for np.linalg.inv: answers are inverses and refusal does not depend on the unit."
  },
  {
   "property": "C71",
   "status": "proved",
   "theorems": [
    "Verif.HrpObj.C71_returns",
    "Verif.HrpObj.C71_covariance"
   ],
   "note": "The clustering itself is scipy's; the theorems say what it is given."
  },
  {
   "property": "C72",
   "status": "proved",
   "theorems": [
    "Verif.HrpObj.C72_units",
    "Verif.HrpObj.C72_order"
   ],
   "note": "Exact real numbers; for covariance matrices see C16."
  },
  {
   "property": "C73",
   "status": "proved",
   "theorems": [
    "Verif.Convex.C73_target_return",
    "Verif.Convex.C73_target_risk",
    "Verif.Convex.C73_utility",
    "Verif.Convex.C73_return_convex",
    "Verif.Convex.C73_risk_concave"
   ],
   "note": "Contract: what the solver reports as optima are optima. Positive semidefinite covariance; a market-neutral semivariance optimiser has benchmark 0 (see C48). riskSlack and retSlack are the effect of rounding."
  },
  {
   "property": "C74",
   "status": "partial",
   "theorems": [
    "Verif.Convex.C74_least_risk",
    "Verif.Convex.C74_slack_target",
    "Verif.Convex.C74_risk_of_return",
    "Verif.Convex.C74_return_of_risk",
    "Verif.Convex.C74_utility",
    "Verif.Convex.C74_sharpe_partial"
   ],
   "note": "As C73. Partial because of the Sharpe ratios: finite lower bounds and added constraints that scale with the portfolio, as in C43, which is false of the code otherwise."
  },
  {
   "property": "C75",
   "status": "partial",
   "theorems": [
    "Verif.Convex.C75_min_volatility",
    "Verif.Convex.C75_efficient_return",
    "Verif.Convex.C75_max_quadratic_utility",
    "Verif.Convex.C75_max_sharpe_partial",
    "Verif.Convex.sameChoice_reorder"
   ],
   "note": "Exact equality of the returned weights. max_sharpe as in C43: finite lower bounds and constraints that scale. Contract: what the solvers report as optima are optima."
  },
  {
   "property": "C76",
   "status": "partial",
   "theorems": [
    "Verif.Convex.C76_traced",
    "Verif.Convex.C76_history",
    "Verif.Convex.C76_report",
    "Verif.Convex.C76_no_returns",
    "Verif.Convex.C76_rate_partial",
    "Verif.Convex.C76_rate_false"
   ],
   "note": "The portfolio is always the last one. The rate given is used only if every max_sharpe before was called with it: false of the code otherwise, the rate of that call wins."
  },
  {
   "property": "C77",
   "status": "proved",
   "theorems": [
    "Verif.Convex.C77_disabled",
    "Verif.Convex.C77_argument",
    "Verif.Convex.C77_world"
   ],
   "note": "The refusals are listed in Spec/Refused.lean."
  },
  {
   "property": "C78",
   "status": "partial",
   "theorems": [
    "Verif.Convex.C78_one_method",
    "Verif.Convex.C78_refused",
    "Verif.Convex.C78_harmless_false"
   ],
   "note": "Refusal holds for every history. Harmlessness is false of the code: the refused call has already replaced the objective, so afterwards every optimisation method raises on the object."
  },
  {
   "property": "C79",
   "status": "partial",
   "theorems": [
    "Verif.Convex.C79_request_partial",
    "Verif.Convex.C79_weights_partial",
    "Verif.Convex.C79_bounds_false",
    "Verif.Convex.C79_short_false",
    "Verif.Convex.C79_success_false",
    "Verif.Convex.C79_added_false"
   ],
   "note": "Holds for objects never asked for a market-neutral portfolio (or with a negative lower bound), for the constraints given in the call, and if scipy reports success. False otherwise: a market-neutral request, also a refused one, leaves bounds -1..1 behind; constraints added to the object are not passed on; scipy's success flag is not looked at."
  },
  {
   "property": "C80",
   "status": "partial",
   "theorems": [
    "Verif.Convex.C80_outcome_partial",
    "Verif.Convex.C80_refusal",
    "Verif.Convex.C80_short_false"
   ],
   "note": "For finite lower bounds and added constraints that scale, as in C43, and a solver that solves what can be solved. False of the code for short positions: the rate is compared with the assets, so rates a long-short portfolio beats are refused."
  },
  {
   "property": "C81",
   "status": "partial",
   "theorems": [
    "Verif.Returns.C81_warned_iff",
    "Verif.Returns.C81_returns_iff",
    "Verif.Returns.C81_one_asset",
    "Verif.Returns.C81_silent_partial",
    "Verif.Returns.C81_blank_false",
    "Verif.Returns.C81_start_false"
   ],
   "note": "The exact condition is proved. False of the code for days on which no asset is quoted - so a single asset is never warned about - and for quotes before the first pair of consecutive ones. capm_return without a market index."
  },
  {
   "property": "C82",
   "status": "partial",
   "theorems": [
    "Verif.Risk.C82_sample_cov",
    "Verif.Risk.C82_exp_cov",
    "Verif.Risk.C82_semicovariance",
    "Verif.Risk.C82_manual",
    "Verif.Risk.C82_single_factor",
    "Verif.Risk.C82_constant_correlation",
    "Verif.Risk.C82_prices",
    "Verif.Risk.C82_exp_cov_order_false"
   ],
   "note": "At least two days (one for semicovariance) and a frequency that is not negative; the targets for data they are defined on (varying market, varying assets). The order of the days matters for exp_cov, by design: false there. Returns restated: not for the two estimates computed by sklearn, whose contract says nothing about it; prices restated: all methods."
  },
  {
   "property": "C83",
   "status": "partial",
   "theorems": [
    "Verif.Risk.C83_sample_cov_partial",
    "Verif.Risk.C83_exp_cov_partial",
    "Verif.Risk.C83_semicovariance_partial",
    "Verif.Risk.C83_semivariance_partial",
    "Verif.Risk.C83_semicovariance_false",
    "Verif.Risk.C83_single_factor_false"
   ],
   "note": "Holds for sample_cov and exp_cov (span above 1) if the pairwise estimates form a positive semidefinite matrix; otherwise they are repaired, C34. In exp_cov each asset's average is over its own known days. False of semicovariance, which divides by all days: the exact reduction is proved. False of the single-factor target, where missing returns count as 0. The constant-correlation target and the sklearn estimates with missing returns are not treated."
  },
  {
   "property": "C84",
   "status": "partial",
   "theorems": [
    "Verif.BL.C84_returns",
    "Verif.BL.C84_cov",
    "Verif.BL.C84_weights",
    "Verif.BL.C84_default",
    "Verif.BL.C84_idzorek_partial",
    "Verif.BL.C84_zero_confidence_false",
    "Verif.BL.C84_redundant_false"
   ],
   "note": "If the view matrix P tau S P' + Omega is singular and least squares are used, all views must be multiplied by numbers of the same size: false otherwise, for certain views that contradict each other. For the weights a covariance that can be inverted and positive risk aversions. False of Idzorek's method with a zero confidence, whose uncertainty is 1e6 in any unit. Exact arithmetic."
  },
  {
   "property": "C85",
   "status": "partial",
   "theorems": [
    "Verif.Convex.C85_outcome_partial",
    "Verif.Convex.C85_return_partial",
    "Verif.Convex.C85_sharpe_partial",
    "Verif.Convex.C85_again_partial",
    "Verif.Convex.C85_again_return_partial",
    "Verif.Convex.C85_cvar_false",
    "Verif.Convex.C85_cdar_false",
    "Verif.Convex.C85_semi_false"
   ],
   "note": "For a solver that solves what can be solved, first optimizations and further targets of one method (of EfficientFrontier.efficient_return those up to the cached largest return), arguments that pass the checks (for the checks of EfficientFrontier see C44 and C45), and market-neutral semivariance with benchmark 0; max_sharpe without added objectives, with constraints that scale and no portfolio without risk. False of the code for negative CVaR targets, negative return targets of EfficientCDaR, and return targets of EfficientSemivariance only a long-short portfolio reaches."
  },
  {
   "property": "C86",
   "status": "partial",
   "theorems": [
    "Verif.BL.C86_tau_partial",
    "Verif.BL.C86_cov",
    "Verif.BL.C86_cov_false",
    "Verif.BL.C86_zero_confidence_false"
   ],
   "note": "Posterior returns and weights, also where the linear systems are singular. False of the posterior covariance, whose excess over the covariance is proportional to tau, and of a zero confidence, whose uncertainty is 1e6 for every tau. Exact arithmetic."
  },
  {
   "property": "C87",
   "status": "partial",
   "theorems": [
    "Verif.BL.C87_compromise",
    "Verif.BL.C87_fit",
    "Verif.BL.C87_average",
    "Verif.BL.C87_idzorek_partial",
    "Verif.BL.C87_default",
    "Verif.BL.C87_more_certain",
    "Verif.BL.C87_more_confident",
    "Verif.BL.C87_zero_confidence_false"
   ],
   "note": "Positive definite covariance and uncertainty for the first two; for the rest the view matrix P tau S P' + Omega can be inverted, so certain views are covered. False for zero confidence, which can move the posterior half the way to the view. Exact arithmetic."
  },
  {
   "property": "C88",
   "status": "proved",
   "theorems": [
    "Verif.BL.C88_informed",
    "Verif.BL.C88_batches"
   ],
   "note": "Reducing the covariance: positive semidefinite covariance and uncertainties with view matrices that can be inverted. Batches: positive definite ones. Exact arithmetic."
  },
  {
   "property": "C89",
   "status": "partial",
   "theorems": [
    "Verif.Charts.C89_weights",
    "Verif.Charts.C89_weights_chart",
    "Verif.Charts.C89_covariance_partial",
    "Verif.Charts.C89_columns_false",
    "Verif.Charts.C89_array",
    "Verif.Charts.C89_array_false",
    "Verif.Charts.C89_tree",
    "Verif.Charts.C89_tree_keeps",
    "Verif.Charts.C89_tree_optimises",
    "Verif.Charts.C89_tree_weights",
    "Verif.Charts.C89_assets",
    "Verif.Charts.C89_assets_false",
    "Verif.Charts.C89_saved_partial",
    "Verif.Charts.C89_saved_false",
    "Verif.Charts.C89_displayed"
   ],
   "note": "Weights and trees in full (contract: scipy's linkage is one of the assets). False of the code: arrays raise with the default arguments of plot_covariance; columns labelled differently from rows get the names of the rows; axes on a figure that is not the current one, where another figure is saved; assets of EfficientSemivariance, drawn at risk 0. NaN weights are not treated."
  },
  {
   "property": "C90",
   "status": "partial",
   "theorems": [
    "Verif.Convex.C90_leaves",
    "Verif.Convex.C90_defined",
    "Verif.Convex.C90_update",
    "Verif.Convex.C90_boolean_false"
   ],
   "note": "For objects whose constraints are cvxpy constraints. False of the code with a Boolean among them, which add_constraint accepts: AttributeError."
  },
  {
   "property": "C91",
   "status": "partial",
   "theorems": [
    "Verif.Cla.C91_turning_points_partial",
    "Verif.Cla.C91_min_volatility_partial",
    "Verif.Cla.C91_min_volatility_later_partial",
    "Verif.Cla.C91_frontier_partial",
    "Verif.Cla.C53_frontier_efficient_false"
   ],
   "note": "For problems without ties (nowhere on the frontier two assets at a bound and indifferent at once, and at its end none), exact arithmetic and an exact inverse. Turning points that sum to one only within the tolerance of 1e-9 are missing, and problems with ties. The last sentence of the statement needs its condition: C53."
  },
  {
   "property": "C92",
   "status": "partial",
   "theorems": [
    "Verif.Cla.C92_solve_ends_partial",
    "Verif.Cla.C92_min_volatility_partial",
    "Verif.Cla.C92_flat_false"
   ],
   "note": "For problems without ties, in which each free asset is traded as the multiplier changes, with lower bounds below the upper ones. False of the code where a free asset is not traded (C92_flat_false): _compute_lambda returns None, which _solve compares with a number, TypeError. Contract: numpy.linalg.inv inverts every matrix that can be inverted. Exact arithmetic."
  },
  {
   "property": "C93",
   "status": "proved",
   "theorems": [
    "Verif.Risk.C93_support",
    "Verif.Risk.C93_full_days",
    "Verif.Risk.C93_incomplete_days",
    "Verif.Risk.C93_prices",
    "Verif.Risk.C93_too_short"
   ],
   "note": "Contract of sklearn's fast_mcd: if it answers, with the empirical covariance of some rows (which ones, and for which inputs it answers, is not modelled); ValueError with fewer than two rows."
  },
  {
   "property": "C94",
   "status": "proved",
   "theorems": [
    "Verif.Discrete.C94_lp_long_short",
    "Verif.Discrete.C07_order_independent_shorts_partial"
   ],
   "note": "Solver contract: exact optimum of the stated integer program. About calls that return; tickers are distinct."
  }
 ]
}