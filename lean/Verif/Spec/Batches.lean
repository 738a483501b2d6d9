import Verif.Model.BlackLitterman
import Mathlib.LinearAlgebra.Matrix.PosDef

/-! Models with more views, and views worked in one batch after another. -/

namespace Verif.BL
open Matrix

variable {κ : Type} {n k m : ℕ}

/-- `y` knows at least what `x` knows: each view `a` of `x` is view `f a` of `y`, and the uncertainty
of these views is not larger in `y` (in the Loewner order).  Views and priors may differ in value. -/
structure Informed (x : Inputs κ n k) (y : Inputs κ n m) (f : Fin k → Fin m) : Prop where
  cov : y.cov = x.cov
  tau : y.tau = x.tau
  pick : ∀ a, y.P (f a) = x.P a
  doubt : (x.omega - y.omega.submatrix f f).PosSemidef

/-- `z` is the model of `x` with the views of `y` added, which err independently of those of `x`. -/
structure Together (x : Inputs κ n k) (y : Inputs κ n m) (z : Inputs κ n (k + m)) : Prop where
  cov : z.cov = x.cov
  tau : z.tau = x.tau
  prior : z.pi = x.pi
  view : z.Q = Fin.append x.Q y.Q
  pick : ∀ a, z.P (Fin.castAdd m a) = x.P a
  pick' : ∀ a, z.P (Fin.natAdd k a) = y.P a
  doubt : ∀ a b, z.omega (Fin.castAdd m a) (Fin.castAdd m b) = x.omega a b
  doubt' : ∀ a b, z.omega (Fin.natAdd k a) (Fin.natAdd k b) = y.omega a b
  apart : ∀ a b, z.omega (Fin.castAdd m a) (Fin.natAdd k b) = 0
  apart' : ∀ a b, z.omega (Fin.natAdd k a) (Fin.castAdd m b) = 0

end Verif.BL
