import Mathlib.Analysis.Matrix.Spectrum
import Mathlib.Algebra.Order.Star.Real
import Verif.Model.Risk

/-! Positive semidefinite matrices: the Cholesky test, eigendecompositions and Gram matrices. -/

set_option linter.unusedSectionVars false

namespace Verif.Risk
open scoped Matrix

variable {n : ℕ}

theorem lowerSym_symm (M : Matrix (Fin n) (Fin n) ℝ) : (lowerSym M)ᵀ = lowerSym M := by
  ext i j
  simp only [Matrix.transpose_apply, lowerSym, Matrix.of_apply]
  rcases lt_trichotomy i j with h | h | h
  · rw [if_pos h.le, if_neg (not_le.2 h)]
  · subst h; rfl
  · rw [if_neg (not_le.2 h), if_pos h.le]

theorem lowerSym_eq (M : Matrix (Fin n) (Fin n) ℝ) (h : Mᵀ = M) : lowerSym M = M := by
  ext i j
  simp only [lowerSym, Matrix.of_apply]
  split
  · rfl
  · exact congrFun (congrFun h i) j

theorem psd_of {M : Matrix (Fin n) (Fin n) ℝ} (hs : Mᵀ = M) (h : ∀ x : Fin n → ℝ, 0 ≤ x ⬝ᵥ M *ᵥ x) :
    M.PosSemidef := by
  refine Matrix.PosSemidef.of_dotProduct_mulVec_nonneg ?_ ?_
  · unfold Matrix.IsHermitian
    rw [Matrix.conjTranspose_eq_transpose_of_trivial, hs]
  · intro x
    simpa using h x

theorem psd_symm {M : Matrix (Fin n) (Fin n) ℝ} (h : M.PosSemidef) : Mᵀ = M := by
  have := h.isHermitian
  unfold Matrix.IsHermitian at this
  rwa [Matrix.conjTranspose_eq_transpose_of_trivial] at this

theorem psd_nonneg {M : Matrix (Fin n) (Fin n) ℝ} (h : M.PosSemidef) (x : Fin n → ℝ) :
    0 ≤ x ⬝ᵥ M *ᵥ x := by
  simpa using h.dotProduct_mulVec_nonneg x

theorem addI_symm (M : Matrix (Fin n) (Fin n) ℝ) (c : ℝ) (h : Mᵀ = M) :
    (M + c • (1 : Matrix (Fin n) (Fin n) ℝ))ᵀ = M + c • (1 : Matrix (Fin n) (Fin n) ℝ) := by
  rw [Matrix.transpose_add, h, Matrix.transpose_smul, Matrix.transpose_one]

theorem isPsd_iff (M : Matrix (Fin n) (Fin n) ℝ) (h : Mᵀ = M) :
    isPsd M = true ↔ (M + (1e-16 : ℝ) • (1 : Matrix (Fin n) (Fin n) ℝ)).PosDef := by
  unfold isPsd
  rw [lowerSym_eq _ (addI_symm M _ h)]
  exact @decide_eq_true_iff _ (Classical.propDecidable _)

theorem isPsd_of_psd {M : Matrix (Fin n) (Fin n) ℝ} (h : M.PosSemidef) : isPsd M = true := by
  rw [isPsd_iff M (psd_symm h)]
  exact Matrix.PosDef.posSemidef_add h (Matrix.PosDef.one.smul (by norm_num))

theorem fixPsd_of_psd (E : Eigh) (method : String) {M : Matrix (Fin n) (Fin n) ℝ} (h : M.PosSemidef) :
    fixPsd E method M = .ok M := by
  unfold fixPsd
  rw [if_pos (isPsd_of_psd h)]

/-- `V diag(q) Vᵀ` with nonnegative `q` is positive semidefinite. -/
theorem psd_conj (V : Matrix (Fin n) (Fin n) ℝ) (q : Fin n → ℝ) (hq : ∀ i, 0 ≤ q i) :
    (V * Matrix.diagonal q * Vᵀ).PosSemidef := by
  have := (Matrix.PosSemidef.diagonal (R := ℝ) (d := q) hq).mul_mul_conjTranspose_same V
  rwa [Matrix.conjTranspose_eq_transpose_of_trivial] at this

/-- An eigendecomposition exists, so `Eigh.Sound` can be met. -/
theorem exists_eigh (M : Matrix (Fin n) (Fin n) ℝ) :
    ∃ p : (Fin n → ℝ) × Matrix (Fin n) (Fin n) ℝ, p.2 * p.2ᵀ = 1 ∧
      lowerSym M = p.2 * Matrix.diagonal p.1 * p.2ᵀ := by
  have hH : (lowerSym M).IsHermitian := by
    unfold Matrix.IsHermitian
    rw [Matrix.conjTranspose_eq_transpose_of_trivial, lowerSym_symm]
  refine ⟨(hH.eigenvalues, (hH.eigenvectorUnitary : Matrix (Fin n) (Fin n) ℝ)), ?_, ?_⟩
  · have := (Matrix.mem_unitaryGroup_iff (A := (hH.eigenvectorUnitary : Matrix (Fin n) (Fin n) ℝ))).1
      hH.eigenvectorUnitary.2
    simpa [Matrix.star_eq_conjTranspose] using this
  · have := hH.spectral_theorem
    rw [Unitary.conjStarAlgAut_apply] at this
    simpa [Matrix.star_eq_conjTranspose, Function.comp_def] using this

/-- A numerical library meeting the contract. -/
noncomputable def exactEigh : Eigh where
  run M := (exists_eigh M).choose

theorem exactEigh_sound : exactEigh.Sound where
  orth M := (exists_eigh M).choose_spec.1
  decomp M := (exists_eigh M).choose_spec.2

/-- Sums of weighted squares are positive semidefinite. -/
theorem gram_psd (l : List (ℝ × (Fin n → ℝ))) (hw : ∀ p ∈ l, 0 ≤ p.1) :
    (Matrix.of fun i j => (l.map (fun p => p.1 * (p.2 i * p.2 j))).sum :
      Matrix (Fin n) (Fin n) ℝ).PosSemidef := by
  induction l with
  | nil =>
    have : (Matrix.of fun i j => (([] : List (ℝ × (Fin n → ℝ))).map
        (fun p => p.1 * (p.2 i * p.2 j))).sum : Matrix (Fin n) (Fin n) ℝ) = 0 := by
      ext i j; simp
    rw [this]
    exact Matrix.PosSemidef.zero
  | cons p l ih =>
    have e : (Matrix.of fun i j => ((p :: l).map (fun p => p.1 * (p.2 i * p.2 j))).sum :
        Matrix (Fin n) (Fin n) ℝ) = p.1 • Matrix.vecMulVec p.2 (star p.2) +
          Matrix.of fun i j => (l.map (fun p => p.1 * (p.2 i * p.2 j))).sum := by
      ext i j
      simp [Matrix.vecMulVec_apply]
    rw [e]
    exact ((Matrix.posSemidef_vecMulVec_self_star p.2).smul (hw p (by simp))).add
      (ih (fun q hq => hw q (by simp [hq])))

end Verif.Risk
