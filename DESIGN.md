# Formal model of PyPortfolioOpt in Lean 4

## Layout

* `lean/Verif/Model/*.lean`  – the model, function by function; every definition cites `/repo` lines.
* `lean/Verif/Spec/*.lean`   – small independent specifications used in theorem statements.
* `lean/Verif/Proof/*.lean`  – helper lemmas.
* `lean/Verif/Props/*.lean`  – property theorems (`Cnn_…`), non-vacuity examples, counter-examples.
* `properties.jsonl` (generated by `tools/props.py`), `MANIFEST.json` (generated by `tools/manifest.py`),
  `seeded/LOG.jsonl` (mutations tried against the model).

## Conventions

* Python exceptions are values: `Except PyErr α`; a method that mutates `self` and then raises is
  modelled as returning the mutated state together with the error.
* Floats are modelled as exact numbers: a linear ordered field `K` (so ℚ for evaluation and ℝ for
  analysis) where only field operations and comparisons occur, ℝ where `sqrt`, `log` or real powers
  occur.  Rounding error is NOT modelled unless stated (np.round / rint / int() are modelled exactly).
  NaN produced by 0/0 is modelled where the code's control flow depends on it (`Option`, `none` = NaN).
* dicts are association lists in insertion order (`Verif.Py.Dict`), last write wins, position of first insertion.
* pandas / numpy / scipy / cvxpy calls are modelled by their documented meaning; solvers, linkage
  and eigen-decompositions are parameters (oracles) whose contract appears as an explicit hypothesis.

* Default argument values are transcribed from the signatures.  A wrong transcription would appear in the
  model and in the statement alike, so no proof can catch it; they were compared with the source by hand.
  `tools/citations.py` checks that every `file.py:lines` comment points inside the function it names.

## Plan per property

| id | model | proof |
|----|-------|-------|
| C01–C03 | `greedy_portfolio` over a field: sort, first round, second round (fuel loop) | invariant of the loop; termination measure = funds / min price |
| C04 | same, with the inner retry loop and counter | true for ≤ 10 assets (partial); counter-example with more assets by evaluation |
| C05 | long/short branch | from C01 for each side |
| C06 | `lp_portfolio` with an oracle for the integer program | LP objective at optimum = L1 objective |
| C07 | same | counter-example (order and greedy-then-lp history); partial theorem for aligned prices |
| C08 | constructor | case analysis; counter-example `short_ratio = 0` |
| C09–C11 | `BaseOptimizer` | list induction; half-even rounding lemmas |
| C12 | `_map_bounds_to_constraints`, CLA bounds | case analysis; counter-examples at two assets |
| C13 | `portfolio_performance` | permutation lemmas |
| C14–C16 | `_raw_hrp_allocation` breadth-first loop | simulation by recursive bisection spec, induction |
| C17–C21 | `CLA` functions | greedy exchange argument; loop invariants; KKT |
| C22–C28 | `BlackLittermanModel` with `Matrix` over ℝ | Woodbury identities, Loewner order |
| C29–C33 | `expected_returns` | telescoping, finite sums, explicit frame store for aliasing |
| C34–C37 | `risk_models` | Hermitian spectral theorem, Gram matrices |
| C38 | `objective_functions` | algebra, convexity |
| C39–C45, C49, C50 | optimizer object as a state machine over arbitrary call histories, solver oracle | invariant by induction over histories; denotation of the problem solved |
| C46–C48 | denotations of CVaR/CDaR/semivariance programs | Rockafellar–Uryasev argument, path induction |
| C51 | `_plot_ef`, `_ef_default_returns_range`, `plot_efficient_frontier` over the convex optimiser model | induction over the parameter range with the invariants of C41; counter-examples |
| C52 | dispatchers | case analysis |
| C53, C54 | `CLA` runs | false of the code; three-asset witness, evaluated |
| C55, C56 | `CLA` call sequences, integer bounds | false of the code; witnesses |
| C57–C59 | `BlackLittermanModel` constructor, call sequences, implied risk aversion | case analysis, coherence invariant |
| C60 | `fix_nonpositive_semidefinite` | Frobenius projection onto the semidefinite cone |
| C61 | worlds of several optimiser objects sharing cvxpy variables | invariant over histories; counter-example for CVaR/CDaR |
| C62–C64 | constructors as functions of dynamically typed arguments | case analysis; counter-examples |
| C65 | `get_latest_prices` followed by the `DiscreteAllocation` constructor | induction over the rows |
| C66 | `_allocation_rmse_error` after a long-only allocation | sums over the weights, from the allocation theorems |
| C67 | `HRPOpt` objects: constructor, call sequences, `portfolio_performance` | invariant over histories; agreement with C13 |
| C68 | `CLA` objects: stored weights and frontier, call sequences | invariant over histories of calls |
| C69 | `_plot_cla` on such objects | invariant; false when weights or a frontier are stored already: witness runs over the reals |
| C70 | `CLA` objects under a change of units | step-by-step correspondence of the two runs, induction over fuel and calls |
| C71 | the matrix `HRPOpt.optimize` gives to scipy's `linkage` | sums over pairs of observations; Cauchy–Schwarz |
| C72 | `HRPOpt.optimize` on restated or reordered returns | correlations equal, covariances scaled, then C16 |
| C73 | what two or three target calls return, on any objects with the same data and configuration | optimality of each answer (C42, C46–C48) against the others; convexity of each risk; rounding bounds |
| C74 | what calls of different methods return | the same, across methods |
| C75 | what the methods of `EfficientFrontier` return on restated data | strict convexity (parallelogram identity; for Sharpe ratios a conic combination); the documented problems correspond under permutation and scaling |
| C76 | `EfficientFrontier.portfolio_performance` after a history of calls | invariant: stored weights and rate are those of the history; false for the rate after a `max_sharpe` at another one |
| C77 | every method of the four classes on calls it refuses | case analysis: the run is the exception and the same object and heap |
| C78 | all optimisation methods of the four classes on objects with a stored problem, over records of calls | invariant: the parameters and the neutrality of the stored problem tell the method; false for harmlessness, with the states from which every method raises as an invariant |
| C79 | `nonconvex_objective` with the whole request to scipy, over records of calls | the request is read as scipy reads it; invariant: which calls change the bounds an object keeps; false after market-neutral requests, for constraints added before and for reported failures |
| C80 | `max_sharpe` on objects not yet optimised | portfolios of largest Sharpe ratio and optima of the transformed problem correspond both ways; false with short positions |
| C81 | `_check_returns` and the frames it is given | a row-by-row invariant of `ffill`; pairs of rows as sublists, so that dropped rows are accounted for; false for days without quotes and before the first return |
| C82 | the estimators of C35 and C37 on two tables, one a restatement of the other (Spec/Restate.lean) | sums reindexed by the two bijections; every intermediate quantity of the shrinkage intensities is homogeneous of degree 2 or 4 in the unit; the weights of `exp_cov` depend on span and length only; false for `exp_cov` with the days reordered |
| C83 | the estimators of C35 and C37 on tables with missing cells | spec over the days known for both assets (Spec/Missing.lean); an invariant of the `ewm` loop with numerator and denominator; false for `semicovariance` and `single_factor` |
| C84 | C22–C26 on two models of the same problem | a relation between the inputs (Spec/Views.lean); uniqueness of solutions of the view system; false for zero confidence in `idzorek_method`, and for contradicting certain views |
| C85 | C39 on objects not yet optimised, C41 on those that have been, the risks of C46–C48 and C80 | the allowed portfolios are compact (Spec/Answer.lean), the risks continuous because convex; attained minima transfer to the problems with further variables; false for targets the argument checks refuse |
| C86 | two constructor calls that differ in `tau`, then C22–C25 | `tau` and Ω scale together; both branches of the solver give the least-squares solution of least norm, which is unique; false of `bl_cov` and for zero confidence |
| C87 | C22, C26 | distances to prior and views as quadratic forms (Spec/Compromise.lean), completing the square; rank-one change of the view system; false for zero confidence |
| C88 | C22, C23 on models with fewer and more views | relations between models (Spec/Batches.lean); completing the square, block matrices |
| C89 | the charts other than the frontier lines: bars, image, tree, assets, files (Model/Charts) | what can be read off a chart (Spec/Charts.lean); stability of sorting, histories of an `HRPOpt` object with its tree; false for arrays, frames with other columns, axes on another figure, semivariance objects |
| C90 | `_get_all_args`, `_flatten`, `is_parameter_defined`, `update_parameter_value` on expression trees (Model/Args) | places in trees (Spec/Args.lean); induction on trees; false with Boolean constraints |
| C91 | `CLA._solve`, `min_volatility`, `efficient_frontier` (Model/Cla) | optimality over all portfolios within the bounds (Spec/ClaBest.lean); first-order conditions as an invariant of the loop, followed along the line of each free set (Proof/ClaLine, Proof/ClaBest), for problems without ties |
| C92 | `CLA._solve`, `min_volatility` (Model/Cla) | the loop never takes a line twice: measure (lines with optimal portfolios below the multiplier, free assets), Proof/ClaEnds; with C91 total correctness of `min_volatility`; three-asset witness of TypeError on flat lines |
| C93 | `min_cov_determinant` (Model/Mcd) | `fast_mcd` is a parameter; contract: covariance of some rows, so a sum of squares and never repaired; gaps and units by equality of the rows handed over |
| C94 | `lp_portfolio` with shorts (Model/Discrete) | C06 for the two sub-portfolios, whose prices are selected by ticker; the two sides have no ticker in common |

Nothing in the list is considered inexpressible.

## Trusted base

1. **Lean's kernel** (4.33.0) and Mathlib as installed.  No axioms are added, and there is no `sorry`, `admit`,
   `native_decide` or `bv_decide`.
2. **Axioms.**  `tools/axioms.py` prints them for every theorem named in `MANIFEST.json`.  All depend on a subset of
   `propext`, `Classical.choice`, `Quot.sound` (Lean's three standard ones).  These depend on `propext` and `Quot.sound`
   only: `C09_missing_ticker`, `C09_round_trip`, `C10_clean_errors`, `C10_clean_no_rounding`,
   `C12_malformed_type_error`, `C12_none_single_pair_partial`, `C12_single_pair_partial`, `C12_two_assets_none_false`,
   `C07_greedy_order_independent_partial`, `C07_order_independent_shorts_partial`.
3. **The transcription.**  That each definition under `Model/` means what the cited lines of `/repo` do.  Every
   definition cites file and lines (`tools/citations.py` checks the ranges, `tools/coverage.py` lists the functions of
   `/repo/pypfopt` and the model file that covers them).
4. **Contracts of external code**, which appear as hypotheses or as parameters of the model, never as axioms:
   * cvxpy: a problem is a feasible set and an objective over extended reals; `Solver.right` (a reported optimum is an
     optimum), `Exact` (an existing optimum is found), `Decides` (and otherwise a status is reported).  C39–C41, C49, C50
     need no contract: they are about the problem handed over.  Real solvers are right only up to a tolerance.
   * cvxpy expressions denote what their names say (`sum_squares`, `quad_form`, `norm`, `@`, comparisons, `Parameter`
     with `nonneg`); shapes are modelled as scalar / non-scalar, DCP curvature only where the library checks it.
   * numpy.linalg: `inv` in CLA inverts what can be inverted (`Inv.Sound`, `Inv.Complete`); `solve`, `lstsq`, `inv`, `pinv`, `eigh` are exact (`LinAlg.Sound`, `IsPinv`, spectral theorem).
   * scipy: `linkage` returns a valid linkage matrix, `minimize` is an arbitrary function (`nonconvex_objective`).
   * pandas: alignment, `dropna`, `ffill`, `pct_change`, `cov`, `mean`, `ewm`, `join`, `dot` by their documented meaning.
   * sklearn: `fast_mcd` answers, if at all, with the empirical covariance of some rows (`FastMcd.Sound`); the shrinkage functions blend as documented (`Sklearn.Sound`).
   * the integer program of `lp_portfolio` is solved to an exact optimum.

## What is modelled

| file of `/repo/pypfopt` | model | what is left out |
|---|---|---|
| `base_optimizer.py` `BaseOptimizer` | `Model/Base` | printing |
| constructors of the optimisers | `Model/Init` | solver options |
| `base_optimizer.py` `BaseConvexOptimizer` | `Model/Convex`, `Model/History`, `Model/Nonconvex` | solver options, `verbose`; scipy is an arbitrary function of the request |
| `base_optimizer.py` `portfolio_performance` | `Model/Perf` | printing |
| `efficient_frontier/*.py` methods | `Model/Frontier`, `Model/TailPerf` | performance after `convex_objective` on CVaR/CDaR objects |
| `cla.py` | `Model/Cla`, `Model/ClaObj` | float tolerance effects |
| `black_litterman.py` | `Model/BlackLitterman` | warnings |
| `discrete_allocation.py` | `Model/Discrete`, `Model/Latest` | printing |
| `expected_returns.py` | `Model/Returns`, `Model/Warn` | warnings other than that of missing returns |
| `hierarchical_portfolio.py` | `Model/Hrp`, `Model/HrpObj` | scipy's linkage (validity is the contract) |
| `risk_models.py` | `Model/Risk`, `Model/Mcd` | the algorithms inside sklearn (contracts) |
| `objective_functions.py` | `Model/Objectives` | cvxpy overloads are modelled through `Model/Frontier` |
| `plotting.py` | `Model/Plot`, `Model/ClaObj`, `Model/Charts` | colours, titles, layout, interactive charts |

Not modelled anywhere: floating-point rounding (numbers are exact; `np.round`, `int()`, `//` are exact operations and do
appear), the time or memory an operation takes, warnings, printed text, file-system errors, threads.  Loops
whose end is not evident carry fuel; theorems either bound the fuel needed (C02, C21) or speak of finished runs.

## Where the code does not do what the properties ask

Each entry has a theorem ending in `_false` with a concrete witness unless marked (read).  The listed property is then
`partial`, and the `_partial` theorem carries the condition that excludes the case.

**Allocation.**  C04: with more than ten assets `greedy_portfolio` gives up after ten unaffordable tries although another
share is affordable.  C07: `lp_portfolio` pairs prices and weights by position and a previous `greedy_portfolio` changes
the order.  C08: `short_ratio=0` passes validation but cannot be allocated.

**Bounds.**  C12: for two assets a pair of pairs is read as one pair of arrays; `None` means different things in the two
spellings.  C56: integer bounds make `CLA` truncate weights.

**CLA.**  C53, C54: `_get_matrices` takes the weights of bound assets from the last stored solution, in which an asset just bound still
has its old weight; this turning point does not sum to one and is purged, and the points drawn between its neighbours are
dominated.  Later turning points are right again, so `min_volatility` is (C91).  C92: if the weight of an asset about to be freed would not depend on the
multiplier, `_compute_lambda` returns None and the comparison in `_solve` raises TypeError, also for different expected returns.  C55: equal
expected returns leave a half-filled list that the next call takes for a solution.  C69: the portfolio plotted as "Max
Sharpe Portfolio" is the one optimised last; `points` is ignored once a frontier is stored.

**Black–Litterman.**  C25: `bl_weights` with a singular covariance solves with the matrix of the view system instead; implied
weights summing to zero become NaN.  C26: zero confidence maps to a constant.  NaN confidences and `tau` pass every check
(read); confidences given as an array are not checked for length (read).  C84:
`idzorek_method` gives a view of zero confidence the uncertainty 1e6 in whatever unit the view is written; stated with a factor
1000 such a view moves the posterior half the way towards it (C87).  Certain views that contradict each other are averaged
with weights that depend on the factor they are written with.  C86: the documentation says that with the default or
Idzorek's uncertainty "the value of τ does not matter"; it does for `bl_cov`, and hence for the volatility and Sharpe ratio
`portfolio_performance` reports, and for zero confidences.

**Constructors.**  C62: two columns of expected returns pass for two assets; without expected returns a 1×2 table passes
for a covariance matrix; `CLA` compares no sizes.  C63: a covariance frame in another order than the expected returns is
used by position; `HRPOpt` ignores a covariance given beside returns.  C64: `EfficientCDaR(None, …)` raises TypeError; return columns in another order, or of other names, are
used by position and their names are dropped.

**Returns and risk models.**  C30: log returns are compounded as if simple; a column without data has return 0 when
compounding; the change of a price over missing quotes is lost.  C81: it is lost without a warning
if no asset is quoted that day (always, for a single asset) or the asset had no return before.  C32: `capm_return` overwrites the
returns of an asset called `mkt` and gives no estimate for it.  C33: `capm_return` renames the caller's market columns.  C34: an unknown repair method is silently accepted
when the matrix needs no repair; an asymmetric matrix is judged by its lower triangle.  C37: `single_factor` divides by
T; zero variance gives NaN.  C38: `ex_post_tracking_error` is not divided by the number of periods.  C83: `semicovariance`
takes missing returns for returns without a drop and divides by all days; `single_factor` takes them for returns of 0.

**Charts.**  C89: `plot_covariance` is documented for arrays, which raise AttributeError with the default arguments; the
names below the columns of the image are those of its rows; `filename` saves pyplot's current figure, also if the axes
given are on another one; the assets in the plot of an `EfficientSemivariance` object are all drawn at risk 0, from the dummy
covariance.  C90: a Boolean among the constraints, which `add_constraint` accepts, makes `is_parameter_defined` raise
AttributeError.

**Optimiser objects.**  C39: a user parameter called like one of the library's is overwritten; a repeated
`convex_objective(weights_sum_to_one=False)` solves the old problem.  C41, C45: a largest return of exactly 0 is taken for
"not computed", so a retarget raises; the cached largest return survives changes of user parameters; market-neutral
targets are judged against fully invested portfolios.  C42: rounding to 16 decimals makes weights sum to
0.9999999999999999.  C43: `max_sharpe` does not scale the constant of an affine constraint.  C44: `efficient_risk`
refuses achievable targets for singular covariances and market-neutral portfolios.  C46: without expected returns,
`portfolio_performance` raises although the optimisation is allowed.  C48: a market-neutral semivariance optimiser uses
benchmark 0 while the report uses the given one.  C61: a copy shares the tail variables, so optimising it changes the
CVaR the original reports.  C51: values refused with ValueError draw the previous point again, or abort the plot if there
is none; CVaR and CDaR objects cannot be plotted; the default range holds returns even for `ef_param="risk"` and
can start above the largest return.  C76: the rate of an earlier `max_sharpe` overrides the rate given to
`portfolio_performance`, whatever portfolio is reported.  C78: trying a second method raises and disables the object, since
the objective has been replaced before the problem is found to be another one.  C79: after a market-neutral request, also a
refused one, `nonconvex_objective` uses bounds -1 and 1; it ignores constraints added with `add_constraint` and scipy's
report of failure; with the default `objective_args=None` the objective is called with a second argument `None`.  C80: `max_sharpe` refuses
rates that no asset beats although a long-short portfolio does.  C85: `EfficientCVaR.efficient_risk` and
`EfficientCDaR.efficient_return` refuse negative targets, and `EfficientSemivariance.efficient_return` targets above every
single asset's return, also where portfolios meet them.
Also (read, and visible in the model as states the `Usable` hypothesis excludes): a failed construction leaks its
constraints; `max_sharpe` on a solved object overwrites constraints and the risk-free rate before it raises;
`_map_bounds_to_constraints` sets the bounds before raising; `EfficientCDaR(None, …)` raises TypeError although
documented.

## Limits of the theorems

* Convex optimiser theorems quantify over all worlds reachable by constructors, copies, calls and parameter changes
  (`Reachable`), with user objects that are `Usable` (names that do not clash, scalar objectives, values that are
  constraints).  C50_weight_sum and C40 do not need it.
* Where weights are "the solver's", rounding to 16 decimals follows; `C42_rounded_*`, `C46_rounded`, `C47_rounded`,
  `C48_rounded` bound what that costs.
* C01–C08 assume positive finite prices; C29, C59 complete price series.

## Seeded bugs

`seeded/LOG.jsonl` has one record per wrong program tried: definition, edit, claim broken, theorems that stopped
proving, theorems tightened in response.
