import Verif.Model.Nonconvex
import Verif.Spec.Spoiled

/-! What `nonconvex_objective` should ask of scipy. -/

noncomputable section

namespace Verif.Convex
open Verif.Py Verif.Base

variable {n : ℕ} {α : Type}

/-- The call asks for a market-neutral portfolio. -/
def WantsNeutral : Call n → Prop
  | .maxUtility _ mn | .efficientRisk _ mn | .efficientReturn _ _ mn | .minCvar mn | .minCdar mn | .minSemi mn => mn = true
  | _ => False

/-- Nothing has been asked of the object, or the last thing asked of it was an optimisation by another method than
`max_quadratic_utility`, which returned weights. -/
def Elsewise (es : List (Event n)) : Prop :=
  es = [] ∨ ∃ es' c₀ w, es = es' ++ [(c₀, .ok (some w))] ∧ (Optimises c₀ ∨ ∃ r b, c₀ = .convex r b) ∧
    ∀ r mn, c₀ ≠ .maxUtility r mn

/-- A scipy constraint holds up to `tol`. -/
def ScipyCon.Holds (tol : ℝ) (c : ScipyCon n) (w : Fin n → ℝ) : Prop :=
  if c.eq then |c.f w| ≤ tol else -tol ≤ c.f w

/-- How scipy reads a request: `w` is feasible up to `tol` if each entry lies between the bounds at its position and the
constraints hold. -/
def Request.Feasible (tol : ℝ) (q : Request n α) (w : Fin n → ℝ) : Prop :=
  q.bounds.length = n ∧ (∀ p ∈ q.bounds.zip (List.ofFn w), p.1.1 ≤ ((p.2 + tol : ℝ) : EReal) ∧
    ((p.2 - tol : ℝ) : EReal) ≤ p.1.2) ∧ ∀ c ∈ q.cons, c.Holds tol w

/-- The cost scipy sees. -/
def Request.cost (q : Request n α) (w : Fin n → ℝ) : Except PyErr ℝ := q.objective w q.args

/-- Weights within bounds, up to `tol`. -/
def Box (tol : ℝ) (lb ub : Fin n → EReal) (w : Fin n → ℝ) : Prop :=
  ∀ i, lb i ≤ ((w i + tol : ℝ) : EReal) ∧ ((w i - tol : ℝ) : EReal) ≤ ub i

/-- The request says: minimise `f w args…` over the weights within the bounds that satisfy the constraints and, if so wanted,
sum to one; start where the user says, and otherwise from equal weights that sum to one. -/
structure AsksScipy (q : Request n α) (lb ub : Fin n → EReal) (f : (Fin n → ℝ) → List α → Except PyErr ℝ)
    (args : ArgsGiven α) (sumToOne : Bool) (constraints : Option (List (ScipyCon n))) (solver : String)
    (guess : Option (Fin n → ℝ)) : Prop where
  feasible : ∀ tol w, q.Feasible tol w ↔ Box tol lb ub w ∧ (sumToOne = true → |∑ i, w i - 1| ≤ tol) ∧
    ∀ l, constraints = some l → ∀ c ∈ l, c.Holds tol w
  tuple : ∀ l, args = .tuple l → ∀ w, q.cost w = f w l
  other : ∀ a, args = .other a → ∀ w, q.cost w = f w [a]
  method : q.method = solver
  given : ∀ g, guess = some g → q.x0 = g
  start : guess = none → ∑ i, q.x0 i = 1 ∧ ∀ i j, q.x0 i = q.x0 j

/-- scipy keeps its word: a point it reports as found is feasible up to its tolerance. -/
def Vouches (tol : ℝ) (minimize : Request n α → Except PyErr (ScipyResult n)) : Prop :=
  ∀ q r, minimize q = .ok r → r.success = true → q.Feasible tol r.x

/-- scipy at its best: whenever the problem has a best point, such a point is found. -/
def Flawless (minimize : Request n α → Except PyErr (ScipyResult n)) : Prop :=
  ∀ q : Request n α, (∃ w c, q.Feasible 0 w ∧ q.cost w = .ok c ∧ ∀ w' c', q.Feasible 0 w' → q.cost w' = .ok c' → c ≤ c') →
    ∃ w c, minimize q = .ok ⟨w, true⟩ ∧ q.Feasible 0 w ∧ q.cost w = .ok c ∧
      ∀ w' c', q.Feasible 0 w' → q.cost w' = .ok c' → c ≤ c'

end Verif.Convex
