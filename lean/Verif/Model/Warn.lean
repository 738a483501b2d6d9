import Verif.Model.Returns

/-!
Model of `_check_returns` (`pypfopt/expected_returns.py`), as the answer to "is the warning that some
returns are NaN issued?".  The warning about infinite returns is not modelled: cells are finite or
missing, and the theorems are about positive prices, which give no infinite return.
-/

namespace Verif.Returns
open Verif.Py Verif.Frames

variable {ι κ : Type}

/-- One cell of `ffill`: the cell itself, or the last one above it if it is missing. -/
def ffillCell (prev : Cell) : Cell → Cell
  | some x => some x
  | none => prev

/-- `DataFrame.ffill()` (expected_returns.py:31) down the rows, given the filled row before. -/
def ffillRows : List Cell → List (ι × List Cell) → List (ι × List Cell)
  | _, [] => []
  | prev, r :: rest =>
    let filled := List.zipWith ffillCell prev r.2
    (r.1, filled) :: ffillRows filled rest

/-- `returns.ffill()` (expected_returns.py:31). -/
def ffill (f : Frame ι κ) : Frame ι κ :=
  { f with rows := ffillRows (f.cols.map (fun _ => none)) f.rows }

/-- `returns.mask(cond.isnull(), 0)` (expected_returns.py:31): 0 wherever `cond` is missing. -/
def maskNull (f cond : Frame ι κ) : Frame ι κ :=
  { f with rows := List.zipWith (fun r s =>
      (r.1, List.zipWith (fun c d => if d.isNone then some 0 else c) r.2 s.2)) f.rows cond.rows }

/-- Whether `_check_returns` warns about missing returns (expected_returns.py:29-34). -/
def nanWarning (f : Frame ι κ) : Bool :=
  (maskNull f (ffill f)).rows.any (fun r => r.2.any (fun c => c.isNone))

/-- The check in `mean_historical_return` (expected_returns.py:139-144). -/
noncomputable def meanWarns (h : Heap ι κ) (prices : ℕ) (returnsData log : Bool) : Bool :=
  let (h, returns) := if returnsData then (h, prices) else returnsFromPrices h prices log
  nanWarning (deref h returns)

/-- The check in `ema_historical_return` (expected_returns.py:186-191). -/
noncomputable def emaWarns (h : Heap ι κ) (prices : ℕ) (returnsData log : Bool) : Bool :=
  let (h, returns) := if returnsData then (h, prices) else returnsFromPrices h prices log
  nanWarning (deref h returns)

/-- The check in `capm_return` (expected_returns.py:243-266), on the frame with the market column;
not reached if that frame cannot be built. -/
noncomputable def capmWarns [DecidableEq ι] [DecidableEq κ] (mkt : κ) (h : Heap ι κ) (prices : ℕ)
    (market : Option ℕ) (returnsData log : Bool) : Bool :=
  match (capmFrame mkt h prices market returnsData log).2 with
  | .error _ => false
  | .ok f => nanWarning f

end Verif.Returns
