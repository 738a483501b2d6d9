import Verif.Model.Frontier
import Verif.Model.Perf

/-!
`portfolio_performance` of `EfficientCVaR`, `EfficientCDaR` and `EfficientSemivariance`.  Printing (`verbose`) is not
modelled.
-/

noncomputable section

namespace Verif.Convex
open Verif.Py Verif.Base Matrix

variable {n : ℕ} (D : Data n)

/-- `portfolio_return(self.weights, self.expected_returns, negative=False)` on numbers
(objective_functions.py:74-89).  `ndarray @ None` and `None @ ndarray` raise ValueError, `None @ None` TypeError. -/
def perfReturn (o : OState n) : Except PyErr ℝ :=
  match o.weights, D.mu with
  | some w, some mu => .ok (w ⬝ᵥ mu)
  | none, none => .error .typeError
  | _, _ => .error .valueError

/-- `1.0 / (len(self.returns) * (1 - self._beta))`, evaluated again (efficient_cvar.py:235, efficient_cdar.py:228). -/
def perfCoef : Except PyErr ℝ :=
  if (D.T : ℝ) * (1 - D.beta) = 0 then .error .zeroDivision else .ok (1 / (D.T * (1 - D.beta)))

/-- `EfficientCVaR.portfolio_performance` (efficient_cvar.py:220-244): the return is that of the stored weights, the
risk is read off the variables `_alpha` and `_u`, which keep the values of the last solve.  `None` stands for variables
without values.  Simplified: a solve gives values to all variables of the object (`Heap.vals`), while cvxpy leaves the
values of variables that do not occur in the problem, so the model says nothing about the risk reported after
`convex_objective`. -/
def cvarPerformance (o : OState n) (h : Heap n) : Except PyErr (ℝ × Option ℝ) := do
  let mu ← perfReturn D o
  let c ← perfCoef D
  pure (mu, h.vals.map (fun s => s.lib 0 0 + c * ∑ t : Fin D.T, s.lib 1 t))

/-- `EfficientCDaR.portfolio_performance` (efficient_cdar.py:213-237); as above with `_z`. -/
def cdarPerformance (o : OState n) (h : Heap n) : Except PyErr (ℝ × Option ℝ) := do
  let mu ← perfReturn D o
  let c ← perfCoef D
  pure (mu, h.vals.map (fun s => s.lib 0 0 + c * ∑ t : Fin D.T, s.lib 2 t))

/-- `drops`, `semivariance` and `semi_deviation` (efficient_semivariance.py:268-271) for given weights; without rows the
sum 0 divided by 0 is NaN. -/
def perfSemi (w : Fin n → ℝ) : Flt ℝ :=
  match Perf.fdiv (∑ t, min (D.R t ⬝ᵥ w - D.bench) 0 ^ 2) (.fin D.T) with
  | .fin x => Perf.fsqrt (x * D.freq)
  | _ => .nan

/-- `EfficientSemivariance.portfolio_performance` (efficient_semivariance.py:249-279). -/
def semiPerformance (rf : ℝ) (o : OState n) : Except PyErr (ℝ × Flt ℝ × Flt ℝ) := do
  let mu ← perfReturn D o
  match o.weights with
  | none => .error .valueError
  | some w => pure (mu, perfSemi D w, Perf.fdiv (mu - rf) (perfSemi D w))

end Verif.Convex
