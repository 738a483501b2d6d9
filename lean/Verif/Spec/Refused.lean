import Verif.Model.History

/-! Calls that are refused whatever the object has been through. -/

noncomputable section

namespace Verif.Convex
open Verif.Py Verif.Base

variable {n : ℕ}

/-- The class does not have the method, or has disabled it: the exception raised. -/
inductive Disabled : Kind → Call n → PyErr → Prop
  | volatility {k : Kind} (h : k ≠ .ef) : Disabled k .minVolatility .notImplemented
  | sharpe {k : Kind} (h : k ≠ .ef) (rf : ℝ) : Disabled k (.maxSharpe rf) .notImplemented
  | utilityCvar (r : ℝ) (mn : Bool) : Disabled .cvar (.maxUtility r mn) .notImplemented
  | utilityCdar (r : ℝ) (mn : Bool) : Disabled .cdar (.maxUtility r mn) .notImplemented
  | weightsCvar (w : Except PyErr (Fin n → ℝ)) : Disabled .cvar (.setWeights w) .notImplemented
  | weightsCdar (w : Except PyErr (Fin n → ℝ)) : Disabled .cdar (.setWeights w) .notImplemented
  | cvar {k : Kind} (h : k ≠ .cvar) (mn : Bool) : Disabled k (.minCvar mn) .attribute
  | cdar {k : Kind} (h : k ≠ .cdar) (mn : Bool) : Disabled k (.minCdar mn) .attribute
  | semi {k : Kind} (h : k ≠ .semi) (mn : Bool) : Disabled k (.minSemi mn) .attribute

/-- The argument cannot be used: the exception raised. -/
inductive BadArg (D : Data n) : Call n → PyErr → Prop
  /-- a risk aversion that is not positive -/
  | aversion (h : D.kind = .ef ∨ D.kind = .semi) {r : ℝ} (hr : r ≤ 0) (mn : Bool) : BadArg D (.maxUtility r mn) .valueError
  /-- a risk-free rate no asset exceeds -/
  | rate (h : D.kind = .ef) {mu : Fin n → ℝ} (hmu : D.mu = some mu) {rf : ℝ} (hr : ∀ i, mu i ≤ rf) :
      BadArg D (.maxSharpe rf) .valueError
  /-- `max_sharpe` without expected returns -/
  | noReturns (h : D.kind = .ef) (hmu : D.mu = none) (rf : ℝ) : BadArg D (.maxSharpe rf) .typeError
  /-- a negative volatility -/
  | negRisk (h : D.kind = .ef) {t : ℝ} (ht : t < 0) (mn : Bool) : BadArg D (.efficientRisk t mn) .valueError
  /-- a target return that is not a float -/
  | notFloat (h : D.kind = .ef ∨ D.kind = .semi) (t : ℝ) (mn : Bool) : BadArg D (.efficientReturn false t mn) .valueError
  /-- for semivariance: a negative target return -/
  | negReturn (h : D.kind = .semi) {t : ℝ} (ht : t < 0) (f mn : Bool) : BadArg D (.efficientReturn f t mn) .valueError
  /-- for semivariance: a target return larger than every expected return in size -/
  | bigReturn (h : D.kind = .semi) {mu : Fin n → ℝ} (hmu : D.mu = some mu) {t : ℝ} (ht : ∀ i, |mu i| < t) (f mn : Bool) :
      BadArg D (.efficientReturn f t mn) .valueError
  /-- a constraint that is not a function -/
  | notCallable (r : Except PyErr ℕ) : BadArg D (.addConstraint false r) .typeError
  /-- weights for which reading the dict fails -/
  | weights (h : D.kind = .ef ∨ D.kind = .semi) (e : PyErr) : BadArg D (.setWeights (.error e)) e

end Verif.Convex
