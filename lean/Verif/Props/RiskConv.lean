import Verif.Proof.Psd

/-! Property theorem C36: conversions between covariances and correlations. -/

set_option linter.unusedSectionVars false

namespace Verif.Risk
open scoped Matrix
open Verif.Frames

variable {n : ℕ}

theorem psd_two {S : Matrix (Fin n) (Fin n) ℝ} (h : S.PosSemidef) (i j : Fin n) (a b : ℝ) :
    0 ≤ a ^ 2 * S i i + 2 * (a * b * S i j) + b ^ 2 * S j j := by
  have h1 := psd_nonneg h (Pi.single i a + Pi.single j b)
  have hs : S j i = S i j := congrFun (congrFun (psd_symm h) i) j
  have e : (Pi.single i a + Pi.single j b) ⬝ᵥ S *ᵥ (Pi.single i a + Pi.single j b) =
      a ^ 2 * S i i + 2 * (a * b * S i j) + b ^ 2 * S j j := by
    rw [Matrix.mulVec_add, dotProduct_add, add_dotProduct, add_dotProduct]
    simp only [single_dotProduct, Matrix.mulVec_single, Pi.smul_apply, Matrix.col_apply,
      MulOpposite.smul_eq_mul_unop, MulOpposite.unop_op, hs]
    ring
  rwa [e] at h1

/-- Cauchy–Schwarz for a positive semidefinite matrix. -/
theorem psd_cs {S : Matrix (Fin n) (Fin n) ℝ} (h : S.PosSemidef) (i j : Fin n) :
    S i j ^ 2 ≤ S i i * S j j := by
  have hi : 0 ≤ S i i := h.diag_nonneg
  have hj : 0 ≤ S j j := h.diag_nonneg
  by_cases h0 : S j j = 0
  · have h1 := psd_two h i j 1 (-(S i i + 1) / 2 * S i j)
    by_cases hz : S i j = 0
    · rw [hz, h0]; simp
    · exfalso
      have h2 := psd_two h i j (S i j) (-(S i i + 1))
      rw [h0] at h2
      have : 0 < S i j ^ 2 := by positivity
      nlinarith
  · have hp : 0 < S j j := lt_of_le_of_ne hj (Ne.symm h0)
    have h1 := psd_two h i j (S j j) (-S i j)
    have h2 : 0 ≤ S j j * (S i i * S j j - S i j ^ 2) := by nlinarith
    have := nonneg_of_mul_nonneg_right h2 hp
    linarith

theorem covToCorr_apply (S : Matrix (Fin n) (Fin n) ℝ) (hd : ∀ i, 0 < S i i) (i j : Fin n) :
    covToCorr S i j = some (S i j / (Real.sqrt (S i i) * Real.sqrt (S j j))) := by
  unfold covToCorr
  simp only [Matrix.of_apply]
  rw [if_pos ⟨hd i, hd j⟩, Matrix.diagonal_mul, Matrix.mul_diagonal]
  congr 1
  have h1 := Real.sqrt_pos.2 (hd i)
  have h2 := Real.sqrt_pos.2 (hd j)
  field_simp

/-- C36.  A covariance matrix with positive variances is turned into a matrix with unit diagonal and
entries in [−1, 1], again positive semidefinite, and converting back with the standard deviations
gives the covariance. -/
theorem C36_cov_to_corr (S : Matrix (Fin n) (Fin n) ℝ) (hS : S.PosSemidef) (hd : ∀ i, 0 < S i i) :
    ∃ R : Matrix (Fin n) (Fin n) ℝ, (∀ i j, covToCorr S i j = some (R i j)) ∧ (∀ i, R i i = 1) ∧
      (∀ i j, -1 ≤ R i j ∧ R i j ≤ 1) ∧ R.PosSemidef ∧
      corrToCov R (fun i => Real.sqrt (S i i)) = S := by
  have hp : ∀ i, 0 < Real.sqrt (S i i) := fun i => Real.sqrt_pos.2 (hd i)
  refine ⟨Matrix.of fun i j => S i j / (Real.sqrt (S i i) * Real.sqrt (S j j)),
    fun i j => covToCorr_apply S hd i j, ?_, ?_, ?_, ?_⟩
  · intro i
    simp only [Matrix.of_apply]
    rw [Real.mul_self_sqrt (hd i).le]
    exact div_self (hd i).ne'
  · intro i j
    simp only [Matrix.of_apply]
    have h1 := psd_cs hS i j
    have h2 : |S i j| ≤ Real.sqrt (S i i) * Real.sqrt (S j j) := by
      rw [← Real.sqrt_mul (hd i).le]
      exact Real.abs_le_sqrt h1
    have h3 := mul_pos (hp i) (hp j)
    have h4 := abs_le.1 h2
    constructor
    · rw [le_div_iff₀ h3]; linarith
    · rw [div_le_one h3]; exact h4.2
  · have e : (Matrix.of fun i j => S i j / (Real.sqrt (S i i) * Real.sqrt (S j j)) :
        Matrix (Fin n) (Fin n) ℝ) = Matrix.diagonal (fun i => (Real.sqrt (S i i))⁻¹) * S *
          (Matrix.diagonal (fun i => (Real.sqrt (S i i))⁻¹))ᴴ := by
      ext i j
      rw [Matrix.conjTranspose_eq_transpose_of_trivial, Matrix.diagonal_transpose, Matrix.mul_diagonal,
        Matrix.diagonal_mul, Matrix.of_apply, div_eq_mul_inv, mul_inv]
      ring
    rw [e]
    exact hS.mul_mul_conjTranspose_same _
  · ext i j
    unfold corrToCov
    simp only [Matrix.of_apply]
    exact div_mul_cancel₀ _ (mul_pos (hp i) (hp j)).ne'

/-- C36 the other way: a matrix with unit diagonal is recovered from the covariance it gives with
positive standard deviations. -/
theorem C36_corr_to_cov (R : Matrix (Fin n) (Fin n) ℝ) (s : Fin n → ℝ) (hR : ∀ i, R i i = 1)
    (hs : ∀ i, 0 < s i) :
    (∀ i j, covToCorr (corrToCov R s) i j = some (R i j)) ∧
      ∀ i, Real.sqrt (corrToCov R s i i) = s i := by
  have hdiag : ∀ i, corrToCov R s i i = s i * s i := by
    intro i; unfold corrToCov; simp [hR]
  have hsq : ∀ i, Real.sqrt (corrToCov R s i i) = s i := by
    intro i; rw [hdiag, Real.sqrt_mul_self (hs i).le]
  refine ⟨fun i j => ?_, hsq⟩
  rw [covToCorr_apply _ (fun i => by rw [hdiag]; exact mul_pos (hs i) (hs i)), hsq, hsq]
  congr 1
  unfold corrToCov
  simp only [Matrix.of_apply]
  exact mul_div_cancel_right₀ _ (mul_pos (hs i) (hs j)).ne'

/-- A covariance with positive variances. -/
example : (!![4, 1; 1, 9] : Matrix (Fin 2) (Fin 2) ℝ).PosSemidef ∧
    ∀ i, 0 < (!![4, 1; 1, 9] : Matrix (Fin 2) (Fin 2) ℝ) i i := by
  refine ⟨psd_of (by ext i j; fin_cases i <;> fin_cases j <;> rfl) (fun x => ?_), ?_⟩
  · simp only [dotProduct, Matrix.mulVec, Fin.sum_univ_two, Matrix.of_apply, Matrix.cons_val',
      Matrix.cons_val_zero, Matrix.cons_val_one, Matrix.cons_val_fin_one]
    nlinarith [sq_nonneg (x 0 + x 1), sq_nonneg (x 0), sq_nonneg (x 1)]
  · intro i; fin_cases i <;> norm_num

end Verif.Risk
