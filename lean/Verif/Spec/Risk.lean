import Mathlib.Data.Real.Sqrt
import Mathlib.LinearAlgebra.Matrix.PosDef
import Verif.Model.Frame

/-! Vocabulary for statements about shrinkage estimators. -/

namespace Verif.Risk
open Verif.Frames

/-- Average of a series. -/
noncomputable def meanOf {t : ℕ} (a : Fin t → ℝ) : ℝ := (∑ s, a s) / t

/-- Covariance of two series with divisor `t`. -/
noncomputable def popCov {t : ℕ} (a b : Fin t → ℝ) : ℝ :=
  (∑ s, (a s - meanOf a) * (b s - meanOf b)) / t

/-- The equally weighted portfolio's return in each period. -/
noncomputable def market {t n : ℕ} (X : Matrix (Fin t) (Fin n) ℝ) (s : Fin t) : ℝ := meanOf (X s)

/-- Series of asset `i`. -/
def series {t n : ℕ} (X : Matrix (Fin t) (Fin n) ℝ) (i : Fin n) : Fin t → ℝ := fun s => X s i

/-- The values of a frame with 0 for a missing value. -/
noncomputable def filled {ι κ : Type} (X : Frame ι κ) :
    Matrix (Fin X.rows.length) (Fin X.cols.length) ℝ :=
  Matrix.of fun s j => ((X.rows[s].2[j.1]?).getD none).getD 0

/-- Average of the off-diagonal correlations. -/
noncomputable def meanCorrelation {n : ℕ} (S : Matrix (Fin n) (Fin n) ℝ) : ℝ :=
  (∑ i, ∑ j ∈ Finset.univ.erase i, S i j / (Real.sqrt (S i i) * Real.sqrt (S j j))) /
    (n * ((n : ℝ) - 1))

end Verif.Risk
