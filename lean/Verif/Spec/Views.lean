import Verif.Model.BlackLitterman
import Mathlib.Logic.Equiv.Defs

/-! The same Black-Litterman problem, written down differently. -/

namespace Verif.BL
open Matrix

variable {κ : Type} {n k : ℕ}

/-- `y` states the problem of `x` with the assets in the order `e`, the views in the order `v`, view
`a` multiplied by `c a`, and `u` units of return to one. -/
structure Reworded (x y : Inputs κ n k) (e : Equiv.Perm (Fin n)) (v : Equiv.Perm (Fin k)) (c : Fin k → ℝ)
    (u : ℝ) : Prop where
  ticker : ∀ i, y.tickers i = x.tickers (e i)
  cov : ∀ i j, y.cov i j = u ^ 2 * x.cov (e i) (e j)
  prior : ∀ i, y.pi i = u * x.pi (e i)
  pick : ∀ a i, y.P a i = c a * x.P (v a) (e i)
  view : ∀ a, y.Q a = c a * (u * x.Q (v a))
  tau : y.tau = x.tau

/-- The uncertainty of the views is restated with them: it has the unit of a variance of the views. -/
def SameDoubt (x y : Inputs κ n k) (v : Equiv.Perm (Fin k)) (c : Fin k → ℝ) (u : ℝ) : Prop :=
  ∀ a b, y.omega a b = (u * c a) * (u * c b) * x.omega (v a) (v b)

end Verif.BL
