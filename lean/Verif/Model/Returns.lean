import Mathlib.Analysis.SpecialFunctions.Log.Basic
import Verif.Model.Frame

/-!
Model of `pypfopt/expected_returns.py`.

Frame arguments are references into a heap of frames; every function returns the heap afterwards
together with its outcome.  Arguments that are not data frames (converted with a warning) and the
warnings of `_check_returns` (lines 29-38, no other effect) are left out here; see `Model/Warn`.
-/

namespace Verif.Returns
open Verif.Py Verif.Frames

variable {ι κ : Type}

/-- `np.log(1 + x)` on one return (expected_returns.py:54): NaN below −1; −inf at −1 is `none`. -/
noncomputable def logReturn (x : ℝ) : Cell := if 0 < 1 + x then some (Real.log (1 + x)) else none

/-- The value computed by `returns_from_prices` (expected_returns.py:53-57). -/
noncomputable def returnsOf (log : Bool) (prices : Frame ι κ) : Frame ι κ :=
  if log then (prices.pctChange.mapCells logReturn).dropnaAll else prices.pctChange.dropnaAll

/-- `returns_from_prices` (expected_returns.py:41-57): a new frame. -/
noncomputable def returnsFromPrices (h : Heap ι κ) (prices : ℕ) (log : Bool) : Heap ι κ × ℕ :=
  alloc h (returnsOf log (deref h prices))

/-- `np.exp(returns)` or `1 + returns` (expected_returns.py:73-76) on one cell. -/
noncomputable def growth (log : Bool) (x : ℝ) : Cell := if log then some (Real.exp x) else some (1 + x)

/-- `prices_from_returns` (expected_returns.py:60-78): a new frame whose first row is overwritten,
then its cumulative product (another new frame). -/
noncomputable def pricesFromReturns (h : Heap ι κ) (returns : ℕ) (log : Bool) :
    Heap ι κ × Except PyErr ℕ :=
  let (h, ret) := alloc h ((deref h returns).mapCells (growth log))
  match (deref h ret).setFirstRow with
  | .error e => (h, .error e)
  | .ok f =>
    let h := h.set ret f
    let (h, out) := alloc h (deref h ret).cumprod
    (h, .ok out)

/-- `(1 + returns).prod() ** (frequency / returns.count()) - 1` for one column
(expected_returns.py:146).  Without data the exponent is inf (or NaN for `frequency = 0`) and numpy's
`1 ** inf`, `1 ** nan` are 1, so the result is 0. -/
noncomputable def geometricMean (freq : ℝ) (l : List Cell) : Cell :=
  if count l = 0 then some 0
  else (npow (prod (l.map (fun c => c.map (1 + ·)))) (freq / count l)).map (· - 1)

/-- `returns.mean() * frequency` for one column (expected_returns.py:148). -/
noncomputable def arithmeticMean (freq : ℝ) (l : List Cell) : Cell := (mean l).map (· * freq)

/-- `mean_historical_return` (expected_returns.py:111-148), as the list of column estimates. -/
noncomputable def meanHistorical (h : Heap ι κ) (prices : ℕ) (returnsData compounding : Bool)
    (freq : ℝ) (log : Bool) : Heap ι κ × List (κ × Cell) :=
  let (h, returns) := if returnsData then (h, prices) else returnsFromPrices h prices log
  let f := deref h returns
  (h, f.cols.zipIdx.map (fun c =>
    (c.1, if compounding then geometricMean freq (f.col c.2) else arithmeticMean freq (f.col c.2))))

/-- One column of `ema_historical_return` (expected_returns.py:192-195). -/
noncomputable def emaColumn (compounding : Bool) (span freq : ℝ) (l : List Cell) :
    Except PyErr Cell :=
  (ewmLast span l).map (fun m => m.bind (fun m =>
    if compounding then (npow (1 + m) freq).map (· - 1) else some (m * freq)))

/-- `ema_historical_return` (expected_returns.py:151-195). -/
noncomputable def emaHistorical (h : Heap ι κ) (prices : ℕ) (returnsData compounding : Bool)
    (span freq : ℝ) (log : Bool) : Heap ι κ × Except PyErr (List (κ × Cell)) :=
  let (h, returns) := if returnsData then (h, prices) else returnsFromPrices h prices log
  let f := deref h returns
  (h, f.cols.zipIdx.mapM (fun c =>
    (emaColumn compounding span freq (f.col c.2)).map (fun v => (c.1, v))))

section Capm
variable [DecidableEq ι] [DecidableEq κ]

/-- `returns["mkt"] = returns.mean(axis=1)` (expected_returns.py:261): row means over the present
cells; replaces a column of that name if there is one, otherwise adds it on the right. -/
noncomputable def appendMean (mkt : κ) (f : Frame ι κ) : Frame ι κ :=
  if mkt ∈ f.cols then
    { f with rows := f.rows.map (fun r => (r.1, r.2.set (f.cols.idxOf mkt) (Frames.mean r.2))) }
  else
    { cols := f.cols ++ [mkt], rows := f.rows.map (fun r => (r.1, r.2 ++ [Frames.mean r.2])) }

/-- `market_returns.columns = ["mkt"]` (expected_returns.py:263), in place; ValueError unless there
is exactly one column. -/
def setColumns (mkt : κ) (f : Frame ι κ) : Except PyErr (Frame ι κ) :=
  if f.cols.length = 1 then .ok { f with cols := [mkt] } else .error .valueError

/-- `returns.join(market_returns, how="left")` (expected_returns.py:264): a new frame; each left row
is paired with every right row of the same index label, or with a missing value if there is none.
ValueError when the column names overlap. -/
def leftJoin (l r : Frame ι κ) : Except PyErr (Frame ι κ) :=
  if ∃ c ∈ l.cols, c ∈ r.cols then .error .valueError
  else .ok
    { cols := l.cols ++ r.cols
      rows := l.rows.flatMap (fun x =>
        match r.rows.filter (fun y => y.1 = x.1) with
        | [] => [(x.1, x.2 ++ r.cols.map (fun _ => none))]
        | ys => ys.map (fun y => (x.1, x.2 ++ y.2))) }

/-- `a / b` on cells; a zero divisor (NaN or inf in numpy) gives `none`. -/
noncomputable def cellDiv : Cell → Cell → Cell
  | some a, some b => if b = 0 then none else some (a / b)
  | _, _ => none

/-- The estimates from the joined frame (expected_returns.py:268-282).  Column labels are assumed
distinct, so `cov["mkt"]` is the column at the position of the label. -/
noncomputable def capmEstimates (mkt : κ) (rf : ℝ) (compounding : Bool) (freq : ℝ) (f : Frame ι κ) :
    List (κ × Cell) :=
  let m := f.col (f.cols.idxOf mkt)
  let mktRet := if compounding then geometricMean freq m else arithmeticMean freq m
  let betas := f.cols.zipIdx.map (fun c => (c.1, cellDiv (covPair (f.col c.2) m) (covPair m m)))
  (betas.filter (fun b => b.1 ≠ mkt)).map (fun b =>
    (b.1, b.2.bind (fun b => mktRet.map (fun e => rf + b * (e - rf)))))

/-- The frame with the market column (expected_returns.py:243-264), and the heap.  With
`returns_data=True` the market frame is the caller's own object. -/
noncomputable def capmFrame (mkt : κ) (h : Heap ι κ) (prices : ℕ) (market : Option ℕ)
    (returnsData log : Bool) : Heap ι κ × Except PyErr (Frame ι κ) :=
  let (h, returns) :=
    if returnsData then alloc h (deref h prices) else returnsFromPrices h prices log
  match market with
  | none =>
    let h := h.set returns (appendMean mkt (deref h returns))
    (h, .ok (deref h returns))
  | some m =>
    let (h, mr) := if returnsData then (h, m) else returnsFromPrices h m log
    match setColumns mkt (deref h mr) with
    | .error e => (h, .error e)
    | .ok g =>
      let h := h.set mr g
      match leftJoin (deref h returns) (deref h mr) with
      | .error e => (h, .error e)
      | .ok j => ((alloc h j).1, .ok j)

/-- `capm_return` (expected_returns.py:198-282). -/
noncomputable def capm (mkt : κ) (h : Heap ι κ) (prices : ℕ) (market : Option ℕ)
    (returnsData : Bool) (rf : ℝ) (compounding : Bool) (freq : ℝ) (log : Bool) :
    Heap ι κ × Except PyErr (List (κ × Cell)) :=
  let (h, r) := capmFrame mkt h prices market returnsData log
  (h, r.map (capmEstimates mkt rf compounding freq))

end Capm

/-- The keyword arguments that can be given to `return_model`. -/
structure ReturnKwargs where
  returnsData : Option Bool := none
  compounding : Option Bool := none
  frequency : Option ℝ := none
  logReturns : Option Bool := none
  span : Option ℝ := none
  marketPrices : Option ℕ := none
  riskFreeRate : Option ℝ := none

/-- `return_model` (expected_returns.py:81-108) with the defaults of the estimators' signatures
(lines 111-113, 151-158, 198-206: compounding True, frequency 252, span 500, risk_free_rate 0.0); TypeError for a keyword the estimator does not have.  The column
name `"mkt"` is the parameter `mkt`. -/
noncomputable def returnModel [DecidableEq ι] [DecidableEq κ] (mkt : κ) (h : Heap ι κ) (prices : ℕ)
    (method : String) (kw : ReturnKwargs) : Heap ι κ × Except PyErr (List (κ × Cell)) :=
  let rd := kw.returnsData.getD false
  let comp := kw.compounding.getD true
  let freq := kw.frequency.getD 252
  let log := kw.logReturns.getD false
  if method = "mean_historical_return" then
    if kw.span.isSome ∨ kw.marketPrices.isSome ∨ kw.riskFreeRate.isSome then (h, .error .typeError)
    else ((meanHistorical h prices rd comp freq log).1, .ok (meanHistorical h prices rd comp freq log).2)
  else if method = "ema_historical_return" then
    if kw.marketPrices.isSome ∨ kw.riskFreeRate.isSome then (h, .error .typeError)
    else emaHistorical h prices rd comp (kw.span.getD 500) freq log
  else if method = "capm_return" then
    if kw.span.isSome then (h, .error .typeError)
    else capm mkt h prices kw.marketPrices rd (kw.riskFreeRate.getD 0) comp freq log
  else (h, .error .notImplemented)

end Verif.Returns
