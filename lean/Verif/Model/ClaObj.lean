import Verif.Model.Cla
import Verif.Model.Perf

/-!
`CLA` objects (cla.py) with what their methods store besides the turning points: `weights` and
`frontier_values`, and the plot of such an object (plotting.py:134-211).  The methods themselves are in
`Verif.Model.Cla`.  Numbers are real.  The lists in `frontier_values` are the ones `efficient_frontier` returned;
callers that change them in place are not modelled.
-/

noncomputable section

namespace Verif.ClaObj
open Verif.Py Verif.Base Verif.Cla

variable {n : ℕ}

/-- What `efficient_frontier` returns (cla.py:439-440): returns, volatilities and weights. -/
abbrev Frontier (n : ℕ) := List ℝ × List (Flt ℝ) × List (Fin n → ℝ)

/-- A `CLA` object (cla.py:63-98): its inputs, the lists of turning points, `self.weights` and
`self.frontier_values`. -/
structure Obj (n : ℕ) where
  p : Problem n ℝ
  s : State n ℝ := {}
  weights : Option (Fin n → ℝ) := none
  frontier : Option (Frontier n) := none

/-- What is drawn: the line, the marked portfolio with the weights and Sharpe ratio shown beside it, and the
points of the single assets. -/
structure Picture (n : ℕ) where
  line : Frontier n
  marked : Option (Flt ℝ) × Flt ℝ × Option (Flt ℝ)
  markedWeights : Option (Fin n → ℝ)
  assets : List (Flt ℝ × ℝ)

/-- The calls that may change the object: its public methods, and plotting it. -/
inductive Call
  | maxSharpe
  | minVolatility
  | efficientFrontier (points : ℕ)
  | setWeights
  | plot (points : ℕ)

/-- What a call returns: weights, a frontier, a picture, or an exception. -/
inductive Out (n : ℕ)
  | weights (w : Fin n → ℝ)
  | frontier (f : Frontier n)
  | picture (q : Picture n)
  | raised (e : PyErr)

/-- `_eval_sr` of a portfolio (cla.py:295-300).  Division by zero is totalised (numpy: inf or NaN), and so is the root of
a negative number (numpy: NaN). -/
def evalSr (p : Problem n ℝ) (w : Fin n → ℝ) : ℝ := ret p w / Real.sqrt (variance p w)

variable (inv : Cla.Inv ℝ) (sharpe : (Fin n → ℝ) → ℝ) (fuel : ℕ)

/-- `max_sharpe` and the assignment to `self.weights` (cla.py:372-392).  `none` = does not return. -/
def Obj.maxSharpe (o : Obj n) : Option (Obj n × Out n) :=
  match Cla.maxSharpe o.p inv sharpe fuel o.s with
  | none => none
  | some (s, .error e) => some ({ o with s := s }, .raised e)
  | some (s, .ok w) => some ({ o with s := s, weights := some w }, .weights w)

/-- `min_volatility` and the assignment to `self.weights` (cla.py:394-409). -/
def Obj.minVolatility (o : Obj n) : Option (Obj n × Out n) :=
  match Cla.minVolatility o.p inv fuel o.s with
  | none => none
  | some (s, .error e) => some ({ o with s := s }, .raised e)
  | some (s, .ok w) => some ({ o with s := s, weights := some w }, .weights w)

/-- The three lists built from the weights (cla.py:433-437); `** 0.5` of a negative numpy float is NaN. -/
def frontierOf (p : Problem n ℝ) (ws : List (Fin n → ℝ)) : Frontier n :=
  (ws.map (ret p), ws.map (fun w => Perf.fsqrt (variance p w)), ws)

/-- `efficient_frontier` and the assignment to `self.frontier_values` (cla.py:411-440). -/
def Obj.efficientFrontier (points : ℕ) (o : Obj n) : Option (Obj n × Out n) :=
  match Cla.efficientFrontier o.p inv fuel points o.s with
  | none => none
  | some (s, .error e) => some ({ o with s := s }, .raised e)
  | some (s, .ok ws) =>
    some ({ o with s := s, frontier := some (frontierOf o.p ws) }, .frontier (frontierOf o.p ws))

/-- `portfolio_performance` (cla.py:446-465): weights, expected returns and covariance are handed on as
arrays. -/
def Obj.performance (o : Obj n) (rf : ℝ) : Except PyErr (Option (Flt ℝ) × Flt ℝ × Option (Flt ℝ)) :=
  Perf.performance (κ := ℕ) id (match o.weights with | none => .none | some w => .array (List.ofFn w))
    (.array (List.ofFn o.p.mean)) (.array (List.ofFn fun i => List.ofFn (o.p.cov i))) rf

/-- The end of `_plot_cla` (plotting.py:143-211) once the object has weights: the performance, the frontier if none
is stored, and the assets at the square roots of the diagonal of the covariance.  The assets are only drawn with
`show_assets=True`. -/
def Obj.draw (points : ℕ) (o : Obj n) : Option (Obj n × Out n) :=
  match o.performance 0 with
  | .error e => some (o, .raised e)
  | .ok r =>
    let assets := List.ofFn fun i => (Perf.fsqrt (o.p.cov i i), o.p.mean i)
    match o.frontier with
    | some f => some (o, .picture ⟨f, r, o.weights, assets⟩)
    | none =>
      match o.efficientFrontier inv fuel points with
      | none => none
      | some (o', .frontier f) => some (o', .picture ⟨f, r, o'.weights, assets⟩)
      | some (o', r) => some (o', r)

/-- `_plot_cla` (plotting.py:134-211), called by `plot_efficient_frontier` (plotting.py:346-354) with its
`points`. -/
def Obj.plot (points : ℕ) (o : Obj n) : Option (Obj n × Out n) :=
  match o.weights with
  | some _ => o.draw inv fuel points
  | none =>
    match o.maxSharpe inv sharpe fuel with
    | none => none
    | some (o', .raised e) => some (o', .raised e)
    | some (o', _) => o'.draw inv fuel points

/-- One call; `set_weights` always raises (cla.py:442-444). -/
def Obj.run (o : Obj n) : Call → Option (Obj n × Out n)
  | .maxSharpe => o.maxSharpe inv sharpe fuel
  | .minVolatility => o.minVolatility inv fuel
  | .efficientFrontier points => o.efficientFrontier inv fuel points
  | .setWeights => some (o, .raised .notImplemented)
  | .plot points => o.plot inv sharpe fuel points

end Verif.ClaObj
