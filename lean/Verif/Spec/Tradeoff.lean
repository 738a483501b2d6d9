import Verif.Spec.Portfolio
import Verif.Spec.Tail
import Mathlib.LinearAlgebra.Matrix.PosDef

/-! Portfolios returned by different calls, and what they are compared by. -/

noncomputable section

namespace Verif.Convex
open Matrix

variable {n : ℕ}

/-- Some program got `w` from the call `c` on an object with the bounds and added constraints `cfg`, the user's
parameters having the values `upar`; what the solver reported as optima during the call were optima.  Different
portfolios may come from different programs, objects and solvers. -/
def Got (U : Uni n) (D : Data n) (cfg : Cfg n) (upar : ℕ → ℝ) (c : Call n) (w : Fin n → ℝ) : Prop :=
  ∃ (S : Solver n) (W : World n) (j : ℕ) (o : OState n), Reachable U S D W ∧ W.objs[j]? = some (cfg, o) ∧
    W.heap.upar = upar ∧ (run U S D c o W.heap).1 = .ok (some w) ∧
    Correct S W.heap (run U S D c o W.heap).2.2

/-- The risk of a portfolio in the sense of the class. -/
def risk (D : Data n) : (Fin n → ℝ) → ℝ :=
  match D.kind with
  | .ef => vol D.cov
  | .cvar => portCvar D.beta D.R
  | .cdar => portCdar D.beta D.R
  | .semi => fun w => semidev D.freq D.bench (daily D.R w)

/-- What rounding to 16 decimals may change in the risk. -/
def riskSlack (D : Data n) : ℝ := 1 / 2 / 10 ^ 16 *
  match D.kind with
  | .ef => Real.sqrt (∑ i, ∑ j, |D.cov i j|)
  | .cvar => ∑ t, ∑ i, |D.R t i|
  | .cdar => ∑ t, ∑ i, |D.R t i|
  | .semi => Real.sqrt (D.freq * ((∑ t, (∑ i, |D.R t i|) ^ 2) / D.T))

/-- What rounding to 16 decimals may change in the return. -/
def retSlack (mu : Fin n → ℝ) : ℝ := 1 / 2 / 10 ^ 16 * ∑ i, |mu i|

/-- The data make sense for the class: a positive semidefinite covariance, a tail of positive length, a positive
frequency and some observations.  A market-neutral semivariance optimiser has benchmark 0 (see C48). -/
def Sound (D : Data n) (mn : Bool) : Prop :=
  match D.kind with
  | .ef => D.cov.PosSemidef
  | .cvar => 0 ≤ D.beta ∧ D.beta < 1
  | .cdar => 0 ≤ D.beta ∧ D.beta < 1
  | .semi => D.T ≠ 0 ∧ 0 < D.freq ∧ (mn = false ∨ D.bench = 0)

/-- The calls that look for the least risk, and whether they are market neutral. -/
def LeastRisk (D : Data n) (mn : Bool) : Call n → Prop
  | .minVolatility => D.kind = .ef ∧ mn = false
  | .minCvar m => D.kind = .cvar ∧ mn = m
  | .minCdar m => D.kind = .cdar ∧ mn = m
  | .minSemi m => D.kind = .semi ∧ mn = m
  | _ => False

/-- Mixing two portfolios. -/
def mix (a : ℝ) (w w' : Fin n → ℝ) : Fin n → ℝ := fun i => a * w i + (1 - a) * w' i

/-- The user's constraints are convex (what cvxpy's rules ensure): mixtures of solutions are solutions. -/
def ConvexCons (U : Uni n) (cfg : Cfg n) (upar : ℕ → ℝ) : Prop :=
  ∀ i, Added.usr i ∈ cfg.cons → ∀ (w w' : Fin n → ℝ) (u u' : ℕ → ℝ) (a : ℝ), 0 ≤ a → a ≤ 1 →
    (U.con i).sat ⟨w, u, upar⟩ → (U.con i).sat ⟨w', u', upar⟩ →
    (U.con i).sat ⟨mix a w w', fun k => a * u k + (1 - a) * u' k, upar⟩

/-- The calls that ask for a portfolio with weights summing to 1 (or 0, if market neutral), whatever they optimise. -/
def Asks (mn : Bool) : Call n → Prop
  | .minVolatility => mn = false
  | .maxUtility _ m => mn = m
  | .efficientRisk _ m => mn = m
  | .efficientReturn _ _ m => mn = m
  | .minCvar m => mn = m
  | .minCdar m => mn = m
  | .minSemi m => mn = m
  | _ => False

/-- `D'` holds the data of `D` with the assets in another order (asset `i` of `D'` is asset `π i` of `D`), the
covariances in another unit (times `c`) and the returns too (times `k`). -/
structure Restated (π : Equiv.Perm (Fin n)) (c k : ℝ) (D D' : Data n) : Prop where
  kind : D.kind = .ef ∧ D'.kind = .ef
  cov : ∀ i j, D'.cov i j = c * D.cov (π i) (π j)
  mu : D'.mu = D.mu.map fun m i => k * m (π i)

/-- Two configurations admit the same portfolios, up to the order of the assets. -/
def SameChoice (π : Equiv.Perm (Fin n)) (mn : Bool) (U : Uni n) (cfg : Cfg n) (upar : ℕ → ℝ) (U' : Uni n) (cfg' : Cfg n)
    (upar' : ℕ → ℝ) : Prop :=
  ∀ w, (∃ u, Admissible U cfg upar mn w u) ↔ ∃ u, Admissible U' cfg' upar' mn (fun i => w (π i)) u

/-- A sector constraint with the assets in another order. -/
def Added.reorder (π : Equiv.Perm (Fin n)) : Added n → Added n
  | .usr i => .usr i
  | .sector sec nm up b => .sector (fun i => sec (π i)) nm up b

end Verif.Convex
