import Verif.Model.BlackLitterman

/-! How far returns are from the prior and from the views. -/

noncomputable section

namespace Verif.BL
open Matrix

variable {κ : Type} {n k m : ℕ}

/-- The squared length of `d` if its covariance is `W`. -/
def strain (W : Matrix (Fin m) (Fin m) ℝ) (d : Fin m → ℝ) : ℝ := d ⬝ᵥ (W⁻¹ *ᵥ d)

/-- How far the returns `r` are from the prior. -/
def fromPrior (x : Inputs κ n k) (r : Fin n → ℝ) : ℝ := strain (x.tau • x.cov) (r - x.pi)

/-- How far the returns `r` are from the views. -/
def fromViews (x : Inputs κ n k) (r : Fin n → ℝ) : ℝ := strain x.omega (x.Q - x.P *ᵥ r)

/-- The variance of the portfolio view `a` is about. -/
def pickVar (x : Inputs κ n k) (a : Fin k) : ℝ := x.P a ⬝ᵥ (x.cov *ᵥ x.P a)

/-- The views are about uncorrelated portfolios (a single view is a case of this). -/
def Uncorrelated (x : Inputs κ n k) : Prop := ∀ a b, a ≠ b → x.P a ⬝ᵥ (x.cov *ᵥ x.P b) = 0

end Verif.BL
