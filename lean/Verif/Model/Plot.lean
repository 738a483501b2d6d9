import Verif.Model.History
import Verif.Model.TailPerf

/-!
The numbers behind `plot_efficient_frontier` (plotting.py) for `EfficientFrontier` objects and their subclasses.  What is
drawn with them (axes, labels, the points of the single assets, saving to file) is not modelled; `CLA` objects are
covered by `Verif.Model.Cla`.
-/

noncomputable section

namespace Verif.Convex
open Verif.Py Verif.Base Matrix

variable {n : ℕ} (U : Uni n) (S : Solver n) (D : Data n)

/-- `EfficientFrontier.portfolio_performance(risk_free_rate=r)` (efficient_frontier.py:424-454,
base_optimizer.py:515-578) on the arrays an object stores: return, volatility and Sharpe ratio.  The risk-free rate of an
earlier `max_sharpe` takes precedence; the warning about it is not modelled. -/
def efPerformance (r : ℝ) (o : OState n) : Except PyErr (Option ℝ × Flt ℝ × Option (Flt ℝ)) :=
  match o.weights with
  | none => .error .valueError
  | some w =>
    let sigma := Perf.fsqrt (w ⬝ᵥ D.cov *ᵥ w)
    match D.mu with
    | none => .ok (none, sigma, none)
    | some mu => .ok (some (w ⬝ᵥ mu), sigma, some (Perf.fdiv (w ⬝ᵥ mu - o.rf.getD r) sigma))

/-- `ret, sigma, _ = ef.portfolio_performance()` (plotting.py:259).  The two classes that report a pair make the
unpacking raise ValueError. -/
def plotPoint (o : OState n) (h : Heap n) : Except PyErr (Option ℝ × Flt ℝ) :=
  match D.kind with
  | .ef => (efPerformance D 0 o).map fun r => (r.1, r.2.1)
  | .semi => (semiPerformance D 0 o).map fun r => (some r.1, r.2.1)
  | .cvar => cvarPerformance D o h >>= fun _ => .error .valueError
  | .cdar => cdarPerformance D o h >>= fun _ => .error .valueError

/-- The call made for one parameter value (plotting.py:240-249); the flag tells whether the value is a float. -/
def plotCall (param : String) (v : Bool × ℝ) : Option (Call n) :=
  if param = "utility" then some (.maxUtility v.2 false)
  else if param = "risk" then some (.efficientRisk v.2 false)
  else if param = "return" then some (.efficientReturn v.1 v.2 false)
  else none

/-- The loop of `_plot_ef` (plotting.py:235-261): the returns and risks drawn.  `NotImplementedError` for another
parameter is only raised once the range has a value. -/
def plotEf (param : String) : List (Bool × ℝ) → M n (List (Option ℝ × Flt ℝ))
  | [] => pure []
  | v :: vs => fun o h =>
    match plotCall param v with
    | none => (.error .notImplemented, o, h)
    | some c =>
      match run U S D c o h with
      | (.error .optimization, o', h') => plotEf param vs o' h'
      | (.error .valueError, o', h') | (.ok _, o', h') =>
        match plotPoint D o' h' with
        | .error e => (.error e, o', h')
        | .ok p => (plotEf param vs >>= fun ps => pure (p :: ps)) o' h'
      | (.error e, o', h') => (.error e, o', h')

/-- `np.linspace(a, b, points)`; exact arithmetic. -/
def linspace (a b : ℝ) (points : ℕ) : List ℝ :=
  if points = 1 then [a] else (List.range points).map fun i : ℕ => a + i * ((b - a) / (points - 1 : ℕ))

/-- `_ef_default_returns_range` (plotting.py:214-225): copies are optimised, the object itself is not. -/
def defaultRange (points : ℕ) : M n (List ℝ) := fun o h =>
  match run U S D .minVolatility (deepcopy o) h with
  | (.error e, _, h₁) => (.error e, o, h₁)
  | (.ok _, o₁, h₁) =>
    match plotPoint D o₁ h₁ with
    | .error e => (.error e, o, h₁)
    | .ok (a, _) =>
      match maxReturn S D (deepcopy o) h₁ with
      | (.error e, _, h₂) => (.error e, o, h₂)
      | (.ok b, _, h₂) =>
        match a with
        | none => (.error .typeError, o, h₂)
        | some a => (.ok (linspace a (b - 0.0001) points), o, h₂)

/-- `plot_efficient_frontier` (plotting.py:355-367) for an object of these classes: the returns and risks drawn. -/
def plotFrontier (param : String) (range : Option (List (Bool × ℝ))) (points : ℕ) : M n (List (Option ℝ × Flt ℝ)) :=
  match range with
  | some r => plotEf U S D param r
  | none => do
    let r ← defaultRange U S D points
    plotEf U S D param (r.map fun t => (true, t))

end Verif.Convex
