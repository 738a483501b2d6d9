import Verif.Model.Discrete
import Verif.Model.Frame

/-!
Model of `get_latest_prices` (discrete_allocation.py:15-28) and of the error report
`_allocation_rmse_error` (discrete_allocation.py:98-130), over the reals.
-/

noncomputable section

namespace Verif.Discrete
open Verif.Py Verif.Frames

variable {ι κ : Type}

/-- One step of pandas' `ffill` (discrete_allocation.py:28): a missing cell takes the value above it. -/
def fillCell (prev cur : Cell) : Cell :=
  match cur with
  | some x => some x
  | none => prev

/-- `ffill` down the rows (discrete_allocation.py:28), given the filled row above. -/
def ffillRows : List Cell → List (ι × List Cell) → List (ι × List Cell)
  | _, [] => []
  | prev, r :: rest =>
    let row := List.zipWith fillCell prev r.2
    (r.1, row) :: ffillRows row rest

/-- `prices.ffill()` (discrete_allocation.py:28): a new frame; nothing lies above the first row. -/
def ffill (f : Frame ι κ) : Frame ι κ :=
  { f with rows := ffillRows (f.cols.map (fun _ => none)) f.rows }

/-- The `prices` argument (discrete_allocation.py:26): a frame or another object. -/
inductive PricesArg (ι κ : Type)
  | frame (f : Frame ι κ)
  | other

/-- `get_latest_prices` (discrete_allocation.py:15-28): the series as pairs of label and cell;
IndexError for a frame without rows. -/
def latestPrices : PricesArg ι κ → Except PyErr (List (κ × Cell))
  | .other => .error .typeError
  | .frame f =>
    match (ffill f).rows.getLast? with
    | none => .error .indexError
    | some r => .ok (f.cols.zip r.2)

variable [DecidableEq κ]

/-- `portfolio_val` (discrete_allocation.py:109-111). -/
def portfolioVal (prices : List (κ × ℝ)) : Dict κ ℤ → Except PyErr ℝ
  | [] => .ok 0
  | (t, num) :: rest => do
    let p ← lookup prices t
    let v ← portfolioVal prices rest
    pure ((num : ℝ) * p + v)

/-- `allocation_weight` (discrete_allocation.py:115-120); a zero `portfolio_val` gives NaN or inf in
numpy, `none` here. -/
def allocationWeight (prices : List (κ × ℝ)) (al : Dict κ ℤ) (val : ℝ) (t : κ) : Except PyErr Cell :=
  match Dict.get? al t with
  | none => .ok (some 0)
  | some num => do
    let p ← lookup prices t
    pure (if val = 0 then none else some ((num : ℝ) * p / val))

/-- `sse` (discrete_allocation.py:113-121). -/
def sse (prices : List (κ × ℝ)) (al : Dict κ ℤ) (val : ℝ) : List (κ × ℝ) → Except PyErr Cell
  | [] => .ok (some 0)
  | (t, w) :: rest => do
    let a ← allocationWeight prices al val t
    let s ← sse prices al val rest
    pure (a.bind fun a => s.map fun s => (w - a) ^ 2 + s)

/-- `_allocation_rmse_error` (discrete_allocation.py:98-130); printing is not modelled.  `0 / 0` on
Python integers raises ZeroDivisionError. -/
def rmse (d : DA κ ℝ) : Except PyErr Cell := do
  let val ← portfolioVal d.prices d.allocation
  let s ← sse d.prices d.allocation val d.weights
  if d.weights = [] then .error .zeroDivision
  else pure (s.map fun s => Real.sqrt (s / d.weights.length))

end Verif.Discrete
