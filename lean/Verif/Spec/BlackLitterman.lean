import Verif.Model.BlackLitterman
import Mathlib.LinearAlgebra.Matrix.PosDef
import Mathlib.LinearAlgebra.Matrix.Rank

/-!
What is assumed of numpy's linear algebra, and the textbook Black-Litterman quantities, written
without the model's functions.
-/

noncomputable section

namespace Verif.BL
open Verif.Py Matrix

/-- Exact linear algebra.  `solve` answers exactly on non-singular matrices and reports singular
ones; `lstsq` returns the least-squares solution of least norm (normal equations, and in the row
space). -/
structure LinAlg.Sound (la : LinAlg) : Prop where
  solve_some : ∀ {m r : ℕ} (A : Matrix (Fin m) (Fin m) ℝ) (b x : Matrix (Fin m) (Fin r) ℝ),
    la.solve m r A b = some x → A * x = b ∧ IsUnit A
  solve_none : ∀ {m r : ℕ} (A : Matrix (Fin m) (Fin m) ℝ) (b : Matrix (Fin m) (Fin r) ℝ),
    la.solve m r A b = none → ¬ IsUnit A
  lstsq_normal : ∀ {m c r : ℕ} (A : Matrix (Fin m) (Fin c) ℝ) (b : Matrix (Fin m) (Fin r) ℝ),
    Aᵀ * (A * la.lstsq m c r A b) = Aᵀ * b
  lstsq_row : ∀ {m c r : ℕ} (A : Matrix (Fin m) (Fin c) ℝ) (b : Matrix (Fin m) (Fin r) ℝ),
    ∃ y : Matrix (Fin m) (Fin r) ℝ, la.lstsq m c r A b = Aᵀ * y

variable {n k : ℕ}

/-- `[(τS)⁻¹ + P' Ω⁻¹ P]⁻¹`. -/
def postPrecInv (S : Matrix (Fin n) (Fin n) ℝ) (P : Matrix (Fin k) (Fin n) ℝ)
    (O : Matrix (Fin k) (Fin k) ℝ) (τ : ℝ) : Matrix (Fin n) (Fin n) ℝ :=
  ((τ • S)⁻¹ + Pᵀ * O⁻¹ * P)⁻¹

/-- The master formula `[(τS)⁻¹ + P' Ω⁻¹ P]⁻¹ [(τS)⁻¹ π + P' Ω⁻¹ Q]`. -/
def masterReturns (S : Matrix (Fin n) (Fin n) ℝ) (P : Matrix (Fin k) (Fin n) ℝ)
    (O : Matrix (Fin k) (Fin k) ℝ) (τ : ℝ) (π : Fin n → ℝ) (Q : Fin k → ℝ) : Fin n → ℝ :=
  postPrecInv S P O τ *ᵥ ((τ • S)⁻¹ *ᵥ π + Pᵀ *ᵥ (O⁻¹ *ᵥ Q))

end Verif.BL
