import Verif.Model.History

/-!
`nonconvex_objective` in full: the request that is put together for `scipy.optimize.minimize`.

`Verif.Convex.nonconvexObjective` (Model/Convex.lean) has a function of the bounds in the place of scipy; here the request
with all its parts is built and scipy is a function of the request.  `nonconvexCall_eq` (Props/Nonconvex.lean) relates the two.
-/

noncomputable section

namespace Verif.Convex
open Verif.Py Verif.Base

variable {n : ℕ} {α : Type}

/-- A scipy constraint `{"type": "eq" | "ineq", "fun": fun}`: `fun(w) == 0` or `fun(w) >= 0`. -/
structure ScipyCon (n : ℕ) where
  eq : Bool
  f : (Fin n → ℝ) → ℝ

/-- The argument `objective_args`: a tuple, or any other object, such as the default `None`. -/
inductive ArgsGiven (α : Type)
  | tuple (l : List α)
  | other (a : α)

/-- The arguments of `scipy.optimize.minimize` (base_optimizer.py:503-510).  The objective is called with the weights and
the entries of `args`; it may raise. -/
structure Request (n : ℕ) (α : Type) where
  objective : (Fin n → ℝ) → List α → Except PyErr ℝ
  x0 : Fin n → ℝ
  args : List α
  method : String
  bounds : List (EReal × EReal)
  cons : List (ScipyCon n)

/-- The parts of scipy's `OptimizeResult` that matter here. -/
structure ScipyResult (n : ℕ) where
  x : Fin n → ℝ
  success : Bool

/-- `initial_guess` (base_optimizer.py:493-494): equal weights unless given.  `1 / self.n_assets` raises
ZeroDivisionError for no assets.  A guess of a wrong shape is not modelled. -/
def initialGuess : Option (Fin n → ℝ) → Except PyErr (Fin n → ℝ)
  | some g => .ok g
  | none => if n = 0 then .error .zeroDivision else .ok fun _ => 1 / (n : ℝ)

/-- `objective_args` as a tuple (base_optimizer.py:486-487). -/
def ArgsGiven.toTuple : ArgsGiven α → List α
  | .tuple l => l
  | .other a => [a]

/-- `final_constraints` (base_optimizer.py:497-501). -/
def finalConstraints (sumToOne : Bool) (constraints : Option (List (ScipyCon n))) : List (ScipyCon n) :=
  (if sumToOne then [⟨true, fun w => ∑ i, w i - 1⟩] else []) ++ constraints.getD []

/-- `nonconvex_objective` up to the call of scipy (base_optimizer.py:485-510).  `lb` and `ub` are
`self._lower_bounds` and `self._upper_bounds`. -/
def scipyRequest (lb ub : Fin n → EReal) (objective : (Fin n → ℝ) → List α → Except PyErr ℝ) (args : ArgsGiven α)
    (sumToOne : Bool) (constraints : Option (List (ScipyCon n))) (solver : String) (guess : Option (Fin n → ℝ)) :
    Except PyErr (Request n α) := do
  let bounds := List.ofFn fun i => (lb i, ub i)
  let x0 ← initialGuess guess
  .ok ⟨objective, x0, args.toTuple, solver, bounds, finalConstraints sumToOne constraints⟩

/-- `nonconvex_objective` (base_optimizer.py:439-512); `minimize` is scipy's.  Only `x` of the result is used. -/
def nonconvexCall (minimize : Request n α → Except PyErr (ScipyResult n))
    (objective : (Fin n → ℝ) → List α → Except PyErr ℝ) (args : ArgsGiven α) (sumToOne : Bool)
    (constraints : Option (List (ScipyCon n))) (solver : String) (guess : Option (Fin n → ℝ)) : M n (Fin n → ℝ) := do
  let o ← get
  let q ← lift (scipyRequest o.lb o.ub objective args sumToOne constraints solver guess)
  let r ← lift (minimize q)
  modify (fun o => { o with weights := some r.x })
  pure r.x

end Verif.Convex
