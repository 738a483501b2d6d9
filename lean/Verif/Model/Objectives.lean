import Verif.Model.Perf
import Mathlib.LinearAlgebra.Matrix.DotProduct

/-!
Model of `pypfopt/objective_functions.py` on numeric weights.  With a `cp.Variable` the same formulas
are cvxpy expressions (`_objective_value`, lines 35-56, returns the expression instead of its value);
their value at a point is the value modelled here.  Shapes are taken to match.
-/

noncomputable section

namespace Verif.Obj
open Verif.Py Verif.Base Verif.Perf Matrix

variable {n T : ℕ}

/-- `-1 if negative else 1`. -/
def sign (negative : Bool) : ℝ := if negative then -1 else 1

/-- Multiplication of a float by `±1`. -/
def fsign (negative : Bool) : Flt ℝ → Flt ℝ
  | .fin x => .fin (sign negative * x)
  | .nan => .nan
  | .posInf => if negative then .negInf else .posInf
  | .negInf => if negative then .posInf else .negInf

/-- `cp.quad_form(w, P)` on numbers: `w.T @ P @ w`. -/
def quad (P : Matrix (Fin n) (Fin n) ℝ) (w : Fin n → ℝ) : ℝ := w ⬝ᵥ (P *ᵥ w)

/-- `portfolio_variance` (objective_functions.py:59-71). -/
def variance (w : Fin n → ℝ) (cov : Matrix (Fin n) (Fin n) ℝ) : ℝ := quad cov w

/-- `portfolio_return` (objective_functions.py:74-89). -/
def ret (w mu : Fin n → ℝ) (negative : Bool) : ℝ := sign negative * (w ⬝ᵥ mu)

/-- `sharpe_ratio` (objective_functions.py:92-115); numpy floats for the square root and the division. -/
def sharpe (w mu : Fin n → ℝ) (cov : Matrix (Fin n) (Fin n) ℝ) (rf : ℝ) (negative : Bool) : Flt ℝ :=
  fsign negative (fdiv (w ⬝ᵥ mu - rf) (fsqrt (quad cov w)))

/-- `L2_reg` (objective_functions.py:118-137). -/
def l2 (w : Fin n → ℝ) (gamma : ℝ) : ℝ := gamma * ∑ i, w i ^ 2

/-- `quadratic_utility` (objective_functions.py:140-165).  `cp.Parameter(value=…, nonneg=True)` raises
ValueError for a negative value. -/
def utility (w mu : Fin n → ℝ) (cov : Matrix (Fin n) (Fin n) ℝ) (riskAversion : ℝ) (negative : Bool) :
    Except PyErr ℝ :=
  if riskAversion < 0 then .error .valueError
  else .ok (sign negative * (w ⬝ᵥ mu - 0.5 * riskAversion * quad cov w))

/-- `transaction_cost` (objective_functions.py:168-183). -/
def cost (w wPrev : Fin n → ℝ) (k : ℝ) : ℝ := k * ∑ i, |w i - wPrev i|

/-- `ex_ante_tracking_error` (objective_functions.py:186-202). -/
def exAnte (w : Fin n → ℝ) (cov : Matrix (Fin n) (Fin n) ℝ) (b : Fin n → ℝ) : ℝ := quad cov (w - b)

/-- `x_i` of `ex_post_tracking_error` (objective_functions.py:223). -/
def active (w : Fin n → ℝ) (hist : Fin T → Fin n → ℝ) (b : Fin T → ℝ) (t : Fin T) : ℝ := w ⬝ᵥ hist t - b t

/-- `ex_post_tracking_error` (objective_functions.py:205-226). -/
def exPost (w : Fin n → ℝ) (hist : Fin T → Fin n → ℝ) (b : Fin T → ℝ) : ℝ :=
  ∑ t, (active w hist b t - (∑ s, active w hist b s) / T) ^ 2

end Verif.Obj
