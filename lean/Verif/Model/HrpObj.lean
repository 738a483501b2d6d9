import Verif.Model.Hrp
import Verif.Model.Perf
import Verif.Model.Frame

/-!
Model of `HRPOpt` objects (hierarchical_portfolio.py:27-204): the constructor, `optimize` on the data it
was given, and `portfolio_performance`.

Numbers are real; a missing number (NaN) in the returns is `none`.  Printing (`verbose`) is not modelled; the
stored linkage (`self.clusters`) is in `Model/Charts`.
-/

noncomputable section

namespace Verif.HrpObj
open Verif.Py Verif.Frames

variable {ι κ : Type}

/-- The `returns` argument. -/
inductive ReturnsIn (ι κ : Type)
  | none
  | frame (f : Frame ι κ)
  | other

/-- The `cov_matrix` argument: a labelled frame, or something without `.columns`. -/
inductive CovIn (κ : Type)
  | none
  | frame (cols : List κ) (rows : List (List ℝ))
  | other

/-- Instance variables of `HRPOpt` (hierarchical_portfolio.py:67-75). -/
structure Obj (ι κ : Type) where
  returns : Option (Frame ι κ)
  cov : CovIn κ
  base : Base.Opt κ ℝ

/-- `HRPOpt.__init__` (hierarchical_portfolio.py:53-75). -/
def init (returns : ReturnsIn ι κ) (cov : CovIn κ) : Except PyErr (Obj ι κ) :=
  match returns, cov with
  | .none, .none => .error .valueError
  | .other, _ => .error .typeError
  | .frame f, c => .ok { returns := some f, cov := c, base := { tickers := f.cols, weights := none } }
  | .none, .frame cols rows =>
    .ok { returns := none, cov := .frame cols rows, base := { tickers := cols, weights := none } }
  | .none, .other => .error .attribute

/-- `self.returns.cov()` (hierarchical_portfolio.py:159, 197). -/
def covRows (f : Frame ι κ) : List (List Cell) :=
  (List.range f.cols.length).map fun i => (List.range f.cols.length).map fun j =>
    covPair (f.col i) (f.col j)

/-- `self.returns.mean()` (hierarchical_portfolio.py:198). -/
def means (f : Frame ι κ) : List Cell := (List.range f.cols.length).map fun j => mean (f.col j)

/-- One entry of `DataFrame.corr()`: over the rows where both columns have data; NaN without spread. -/
def corrPair (xs ys : List Cell) : Cell :=
  let ps := pairs xs ys
  let mx := (ps.map Prod.fst).sum / ps.length
  let my := (ps.map Prod.snd).sum / ps.length
  let d := Real.sqrt ((ps.map (fun p => (p.1 - mx) ^ 2)).sum * (ps.map (fun p => (p.2 - my) ^ 2)).sum)
  if ps.length ≤ 1 ∨ d = 0 then none
  else some ((ps.map (fun p => (p.1 - mx) * (p.2 - my))).sum / d)

/-- `self.returns.corr()` (hierarchical_portfolio.py:159). -/
def corrRows (f : Frame ι κ) : List (List Cell) :=
  (List.range f.cols.length).map fun i => (List.range f.cols.length).map fun j =>
    corrPair (f.col i) (f.col j)

/-- All cells as numbers, if none is missing. -/
def numbers (rows : List (List Cell)) : Option (List (List ℝ)) := rows.mapM fun r => r.mapM id

section Labels
variable [DecidableEq κ]

/-- `.loc[a, b]` on a square table labelled by `cols`. -/
def loc (cols : List κ) (rows : List (List ℝ)) (a b : κ) : ℝ :=
  (rows.getD (cols.idxOf a) []).getD (cols.idxOf b) 0

end Labels

/-- The covariance and correlation `optimize` works with (hierarchical_portfolio.py:155-159); `none` when
one of them contains NaN, where scipy decides what happens, or when the covariance is no frame. -/
def Obj.input [LinearOrder κ] (o : Obj ι κ) : Option (Hrp.Input κ) :=
  match o.returns, o.cov with
  | some f, _ =>
    match numbers (corrRows f), numbers (covRows f) with
    | some c, some s => some (.returns (loc f.cols c) (loc f.cols s))
    | _, _ => none
  | none, .frame cols rows => some (.cov (loc cols rows))
  | none, _ => none

/-- `HRPOpt.optimize` on the object (hierarchical_portfolio.py:142-174), see `Hrp.optimize`.  `none` =
outside the model (NaN in the inputs, or out of fuel). -/
def Obj.optimize [LinearOrder κ] (linkage : (κ → κ → ℝ) → Except PyErr (List (ℕ × ℕ))) (fuel : ℕ)
    (methodOk : Bool) (o : Obj ι κ) : Obj ι κ × Option (Except PyErr (Dict κ ℝ)) :=
  if !methodOk then (o, some (.error .valueError))
  else match o.input with
    | none => (o, none)
    | some inp =>
      let r := Hrp.optimize linkage fuel methodOk o.base inp
      ({ o with base := r.1 }, r.2)

/-- The inherited `set_weights` (base_optimizer.py:70-77). -/
def Obj.setWeights [DecidableEq κ] (o : Obj ι κ) (d : Dict κ ℝ) : Obj ι κ × Except PyErr Unit :=
  let r := Base.setWeights o.base d
  ({ o with base := r.1 }, r.2)

/-- The module-level `portfolio_performance` (base_optimizer.py:515-578) for an array of weights when
numbers may be missing: NaN times anything is NaN, so one missing mean makes the return and the Sharpe
ratio NaN, one missing covariance the volatility and the Sharpe ratio. -/
def arrayPerformance (w : List ℝ) (mu : Option (List Cell)) (cov : List (List Cell)) (rf : ℝ) :
    Except PyErr (Option (Base.Flt ℝ) × Base.Flt ℝ × Option (Base.Flt ℝ)) :=
  if ¬ (cov.length = w.length ∧ cov.all (fun r => r.length == w.length)) then .error .valueError
  else
    let sigma : Base.Flt ℝ := match numbers cov with
      | none => .nan
      | some s => Perf.fsqrt (Perf.dot w (s.map (fun r => Perf.dot r w)))
    match mu with
    | none => .ok (none, sigma, none)
    | some m =>
      if m.length ≠ w.length then .error .valueError
      else match m.mapM id with
        | none => .ok (some .nan, sigma, some .nan)
        | some m => .ok (some (.fin (Perf.dot w m)), sigma, some (Perf.fdiv (Perf.dot w m - rf) sigma))

/-- `HRPOpt.portfolio_performance` (hierarchical_portfolio.py:176-204).  Without weights the module-level
function raises ValueError. -/
def Obj.performance (o : Obj ι κ) (rf freq : ℝ) :
    Except PyErr (Option (Base.Flt ℝ) × Base.Flt ℝ × Option (Base.Flt ℝ)) :=
  match o.base.weights with
  | none => .error .valueError
  | some w =>
    match o.returns, o.cov with
    | some f, _ =>
      arrayPerformance w (some ((means f).map (fun c => c.map (· * freq))))
        ((covRows f).map (fun r => r.map (fun c => c.map (· * freq)))) rf
    | none, .frame _ rows => arrayPerformance w none (rows.map (fun r => r.map some)) rf
    | none, _ => .error .attribute

end Verif.HrpObj
