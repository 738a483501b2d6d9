import Verif.Proof.Psd
import Mathlib.Algebra.QuadraticDiscriminant
import Mathlib.Analysis.SpecialFunctions.Pow.NNReal
import Mathlib.Tactic.Linarith
import Mathlib.Tactic.Ring

/-! Quadratic forms of positive semidefinite matrices. -/

namespace Verif.Convex
open Matrix

variable {n : ℕ} {M : Matrix (Fin n) (Fin n) ℝ}

theorem dot_symm (h : Mᵀ = M) (x y : Fin n → ℝ) : x ⬝ᵥ M *ᵥ y = y ⬝ᵥ M *ᵥ x := by
  rw [dotProduct_mulVec, ← mulVec_transpose, h, dotProduct_comm]

theorem quad_add (h : Mᵀ = M) (x y : Fin n → ℝ) (t : ℝ) :
    (x + t • y) ⬝ᵥ M *ᵥ (x + t • y) = (y ⬝ᵥ M *ᵥ y) * (t * t) + 2 * (x ⬝ᵥ M *ᵥ y) * t + x ⬝ᵥ M *ᵥ x := by
  rw [mulVec_add, mulVec_smul, dotProduct_add, add_dotProduct, add_dotProduct, smul_dotProduct, smul_dotProduct,
    dotProduct_smul, dotProduct_smul, dot_symm h y x]
  simp only [smul_eq_mul]
  ring

/-- Cauchy–Schwarz. -/
theorem cauchy (h : M.PosSemidef) (x y : Fin n → ℝ) :
    (x ⬝ᵥ M *ᵥ y) ^ 2 ≤ (x ⬝ᵥ M *ᵥ x) * (y ⬝ᵥ M *ᵥ y) := by
  have hs := Verif.Risk.psd_symm h
  have hd := discrim_le_zero (a := y ⬝ᵥ M *ᵥ y) (b := 2 * (x ⬝ᵥ M *ᵥ y)) (c := x ⬝ᵥ M *ᵥ x) fun t => by
    rw [← quad_add hs]
    exact Verif.Risk.psd_nonneg h _
  unfold discrim at hd
  nlinarith

/-- The triangle inequality. -/
theorem sqrt_quad_add (h : M.PosSemidef) (x y : Fin n → ℝ) :
    Real.sqrt ((x + y) ⬝ᵥ M *ᵥ (x + y)) ≤ Real.sqrt (x ⬝ᵥ M *ᵥ x) + Real.sqrt (y ⬝ᵥ M *ᵥ y) := by
  have hs := Verif.Risk.psd_symm h
  have hx := Verif.Risk.psd_nonneg h x
  have hy := Verif.Risk.psd_nonneg h y
  rw [Real.sqrt_le_left (by positivity)]
  have e := quad_add hs x y 1
  rw [one_smul] at e
  rw [e]
  have hc : x ⬝ᵥ M *ᵥ y ≤ Real.sqrt (x ⬝ᵥ M *ᵥ x) * Real.sqrt (y ⬝ᵥ M *ᵥ y) := by
    rw [← Real.sqrt_mul hx]
    exact Real.le_sqrt_of_sq_le (cauchy h x y)
  nlinarith [Real.sq_sqrt hx, Real.sq_sqrt hy]

theorem quad_le_abs (x : Fin n → ℝ) {c : ℝ} (hc : ∀ i, |x i| ≤ c) : x ⬝ᵥ M *ᵥ x ≤ c ^ 2 * ∑ i, ∑ j, |M i j| := by
  rw [dotProduct, Finset.mul_sum]
  refine Finset.sum_le_sum fun i _ => ?_
  rw [mulVec, dotProduct, Finset.mul_sum, Finset.mul_sum]
  refine Finset.sum_le_sum fun j _ => ?_
  have h0 : 0 ≤ c := (abs_nonneg _).trans (hc i)
  calc x i * (M i j * x j) ≤ |x i * (M i j * x j)| := le_abs_self _
    _ = |x i| * |x j| * |M i j| := by rw [abs_mul, abs_mul]; ring
    _ ≤ c * c * |M i j| := mul_le_mul_of_nonneg_right (mul_le_mul (hc i) (hc j) (abs_nonneg _) h0) (abs_nonneg _)
    _ = _ := by ring

end Verif.Convex
