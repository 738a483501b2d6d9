import Verif.Proof.BlackLitterman

/-! Both branches of the linear solver return the least-squares solution of least norm, which is
determined by the system. -/

set_option linter.unusedSectionVars false
noncomputable section

namespace Verif.BL
open Verif.Py Verif.Base Verif.Perf Matrix

variable {la : LinAlg} {m c r : ℕ}

theorem gram_zero (A : Matrix (Fin m) (Fin c) ℝ) (d : Matrix (Fin c) (Fin r) ℝ) (h : Aᵀ * (A * d) = 0) :
    A * d = 0 := by
  have := normal_exact A 0 d 0 (by rw [h, Matrix.mul_zero]) (Matrix.mul_zero A)
  exact this

/-- The least-squares solution in the row space is unique. -/
theorem least_unique {A : Matrix (Fin m) (Fin c) ℝ} {b : Matrix (Fin m) (Fin r) ℝ}
    {s t : Matrix (Fin c) (Fin r) ℝ} {y z : Matrix (Fin m) (Fin r) ℝ} (hs : Aᵀ * (A * s) = Aᵀ * b)
    (ht : Aᵀ * (A * t) = Aᵀ * b) (hy : s = Aᵀ * y) (hz : t = Aᵀ * z) : s = t := by
  have h1 : A * (s - t) = 0 := gram_zero A _ (by rw [Matrix.mul_sub, Matrix.mul_sub, hs, ht, sub_self])
  have h2 : s - t = Aᵀ * (y - z) := by rw [hy, hz, Matrix.mul_sub]
  have h3 : Aᵀᵀ * (Aᵀ * (y - z)) = 0 := by rw [transpose_transpose, ← h2, h1]
  have h4 := gram_zero Aᵀ _ h3
  rw [← h2] at h4
  exact sub_eq_zero.1 h4

theorem solveOr_lstsq (h : la.Sound) (A : Matrix (Fin m) (Fin m) ℝ) (b : Matrix (Fin m) (Fin r) ℝ) :
    solveOr la A b = la.lstsq m m r A b := by
  by_cases hA : IsUnit A
  · have hu := (isUnit_iff_isUnit_det _).1 hA
    have hut : IsUnit Aᵀ := by rw [isUnit_iff_isUnit_det, det_transpose]; exact hu
    obtain ⟨z, hz⟩ := h.lstsq_row A b
    refine least_unique (y := (Aᵀ)⁻¹ * solveOr la A b) (solveOr_normal h A b) (h.lstsq_normal A b) ?_ hz
    rw [← Matrix.mul_assoc, unit_mul_inv hut, Matrix.one_mul]
  · unfold solveOr
    cases hs : la.solve m r A b with
    | none => rfl
    | some x => exact absurd (h.solve_some A b x hs).2 hA

theorem lstsq_smul (h : la.Sound) (A : Matrix (Fin m) (Fin c) ℝ) (b : Matrix (Fin m) (Fin r) ℝ) {f : ℝ}
    (hf : f ≠ 0) : la.lstsq m c r (f • A) b = f⁻¹ • la.lstsq m c r A b := by
  obtain ⟨y, hy⟩ := h.lstsq_row (f • A) b
  obtain ⟨z, hz⟩ := h.lstsq_row A b
  refine least_unique (z := (f⁻¹ * f⁻¹) • z) (h.lstsq_normal (f • A) b) ?_ hy ?_
  · simp only [transpose_smul, Matrix.smul_mul, Matrix.mul_smul, h.lstsq_normal A b, smul_smul]
    rw [inv_mul_cancel₀ hf, one_mul]
  · rw [hz, transpose_smul, Matrix.smul_mul, Matrix.mul_smul, smul_smul, ← mul_assoc, mul_inv_cancel₀ hf,
      one_mul]

theorem solveOr_smul (h : la.Sound) (A : Matrix (Fin m) (Fin m) ℝ) (b : Matrix (Fin m) (Fin r) ℝ) {f : ℝ}
    (hf : f ≠ 0) : solveOr la (f • A) b = f⁻¹ • solveOr la A b := by
  rw [solveOr_lstsq h, solveOr_lstsq h, lstsq_smul h A b hf]

/-- Several right-hand sides. -/
theorem solveOr_rhs (h : la.Sound) (A : Matrix (Fin m) (Fin m) ℝ) (b : Matrix (Fin m) (Fin r) ℝ) (f : ℝ) :
    solveOr la A (f • b) = f • solveOr la A b := by
  rw [solveOr_lstsq h, solveOr_lstsq h]
  obtain ⟨y, hy⟩ := h.lstsq_row A (f • b)
  obtain ⟨z, hz⟩ := h.lstsq_row A b
  refine least_unique (z := f • z) (h.lstsq_normal A (f • b)) ?_ hy ?_
  · rw [Matrix.mul_smul, Matrix.mul_smul, h.lstsq_normal A b, Matrix.mul_smul]
  · rw [hz, Matrix.mul_smul]

end Verif.BL
