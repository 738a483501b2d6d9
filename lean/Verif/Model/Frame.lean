import Mathlib.Analysis.SpecialFunctions.Pow.Real
import Verif.Model.Py

/-!
The part of pandas' `DataFrame` that `pypfopt/expected_returns.py` and `pypfopt/risk_models.py` use.

A cell is `none` when it is NaN and `some x` for a finite number.  Infinities are not modelled: an
operation that would give ±inf gives `none` here; the theorems exclude the inputs where it happens.
Every row of a well-formed frame has one cell per column (`Frame.Shaped`).
-/

namespace Verif.Frames
open Verif.Py

abbrev Cell := Option ℝ

/-- A data frame with index labels `ι` and column labels `κ`. -/
structure Frame (ι κ : Type) where
  cols : List κ
  rows : List (ι × List Cell)

variable {ι κ : Type}

/-- Rows have as many cells as there are columns. -/
def Frame.Shaped (f : Frame ι κ) : Prop := ∀ r ∈ f.rows, r.2.length = f.cols.length

/-- No missing values. -/
def Frame.Complete (f : Frame ι κ) : Prop := ∀ r ∈ f.rows, ∀ c ∈ r.2, c ≠ none

/-- `f.iloc[:, j]` as a list of cells. -/
def Frame.col (f : Frame ι κ) (j : ℕ) : List Cell := f.rows.map (fun r => (r.2[j]?).getD none)

/-- An elementwise operation such as `1 + returns`: a new frame with the same labels. -/
def Frame.mapCells (g : ℝ → Cell) (f : Frame ι κ) : Frame ι κ :=
  { f with rows := f.rows.map (fun r => (r.1, r.2.map (fun c => c.bind g))) }

/-- One cell of `pct_change(fill_method=None)`: `cur / prev - 1`, NaN if either is missing.
A zero previous price gives inf or NaN in numpy, `none` here. -/
noncomputable def pctCell (prev cur : Cell) : Cell :=
  match prev, cur with
  | some a, some b => if a = 0 then none else some (b / a - 1)
  | _, _ => none

/-- The rows of `pct_change` after the first, given the row before. -/
noncomputable def pctRows : List Cell → List (ι × List Cell) → List (ι × List Cell)
  | _, [] => []
  | prev, r :: rest => (r.1, List.zipWith pctCell prev r.2) :: pctRows r.2 rest

/-- `DataFrame.pct_change(fill_method=None)`: the first row is all NaN. -/
noncomputable def Frame.pctChange (f : Frame ι κ) : Frame ι κ :=
  match f.rows with
  | [] => f
  | r :: rest => { f with rows := (r.1, r.2.map (fun _ => none)) :: pctRows r.2 rest }

/-- `DataFrame.dropna(how="all")`. -/
def Frame.dropnaAll (f : Frame ι κ) : Frame ι κ :=
  { f with rows := f.rows.filter (fun r => r.2.any (fun c => c.isSome)) }

/-- One cell of `cumprod` (`skipna=True`): NaN stays NaN and does not touch the running product. -/
noncomputable def cumCell (acc : ℝ) : Cell → ℝ × Cell
  | none => (acc, none)
  | some x => (acc * x, some (acc * x))

/-- `cumprod` down the rows, one running product per column. -/
noncomputable def cumRows : List ℝ → List (ι × List Cell) → List (ι × List Cell)
  | _, [] => []
  | acc, r :: rest =>
    let step := List.zipWith cumCell acc r.2
    (r.1, step.map Prod.snd) :: cumRows (step.map Prod.fst) rest

/-- `DataFrame.cumprod()`. -/
noncomputable def Frame.cumprod (f : Frame ι κ) : Frame ι κ :=
  { f with rows := cumRows (f.cols.map (fun _ => 1)) f.rows }

/-- `f.iloc[0] = 1` (in place); IndexError when there is no row. -/
def Frame.setFirstRow (f : Frame ι κ) : Except PyErr (Frame ι κ) :=
  match f.rows with
  | [] => .error .indexError
  | r :: rest => .ok { f with rows := (r.1, r.2.map (fun _ => some 1)) :: rest }

/-- The non-missing values of a column. -/
def present (l : List Cell) : List ℝ := l.filterMap id

/-- `Series.count()`. -/
def count (l : List Cell) : ℕ := (present l).length

/-- `Series.mean()` (`skipna`): NaN without data. -/
noncomputable def mean (l : List Cell) : Cell :=
  if count l = 0 then none else some ((present l).sum / count l)

/-- `Series.prod()` (`skipna`): 1 without data. -/
noncomputable def prod (l : List Cell) : ℝ := (present l).prod

/-- numpy's `x ** y` on finite numbers.  NaN for a negative base with a fractional exponent; a zero
base with a negative exponent is inf in numpy, `none` here. -/
noncomputable def npow (x y : ℝ) : Cell :=
  if 0 < x then some (x ^ y)
  else if x = 0 then (if y < 0 then none else some ((0 : ℝ) ^ y))
  else if y = (⌊y⌋ : ℝ) then some (x ^ ⌊y⌋) else none

/-- The rows where both series have data. -/
def pairs (xs ys : List Cell) : List (ℝ × ℝ) :=
  (List.zip xs ys).filterMap (fun p =>
    match p.1, p.2 with
    | some a, some b => some (a, b)
    | _, _ => none)

/-- One entry of `DataFrame.cov()`: the covariance over the rows where both columns have data, with
divisor (number of such rows) − 1; NaN with fewer than two rows. -/
noncomputable def covPair (xs ys : List Cell) : Cell :=
  let ps := pairs xs ys
  let mx := (ps.map Prod.fst).sum / ps.length
  let my := (ps.map Prod.snd).sum / ps.length
  if ps.length ≤ 1 then none
  else some ((ps.map (fun p => (p.1 - mx) * (p.2 - my))).sum / (ps.length - 1))

/-- State of pandas' `ewm(adjust=True, ignore_na=False).mean()` loop: the running average (NaN
before the first observation) and the weight of the past. -/
structure Ewm where
  avg : Cell
  old : ℝ

/-- One step of that loop (pandas `aggregations.ewm`, `normalize=True`, with `alpha = 2/(span+1)`). -/
noncomputable def ewmStep (alpha : ℝ) (s : Ewm) (c : Cell) : Ewm :=
  match s.avg, c with
  | some a, some x =>
    let o := s.old * (1 - alpha)
    { avg := some ((o * a + x) / (o + 1)), old := o + 1 }
  | some a, none => { avg := some a, old := s.old * (1 - alpha) }
  | none, some x => { avg := some x, old := 1 }
  | none, none => s

/-- `series.ewm(span=span).mean().iloc[-1]`.  ValueError for `span < 1`, IndexError on no rows. -/
noncomputable def ewmLast (span : ℝ) (l : List Cell) : Except PyErr Cell :=
  if span < 1 then .error .valueError
  else if l = [] then .error .indexError
  else .ok (l.foldl (ewmStep (2 / (span + 1))) { avg := none, old := 1 }).avg

/-! ### Frames as objects

Frames live in a heap, so that in-place changes and aliasing are visible. -/

abbrev Heap (ι κ : Type) := List (Frame ι κ)

/-- A new frame object; its reference. -/
def alloc (h : Heap ι κ) (f : Frame ι κ) : Heap ι κ × ℕ := (h ++ [f], h.length)

/-- The frame behind a reference (references given to the functions are always valid). -/
def deref (h : Heap ι κ) (r : ℕ) : Frame ι κ := (h[r]?).getD { cols := [], rows := [] }

end Verif.Frames
