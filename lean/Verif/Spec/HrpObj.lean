import Verif.Spec.Frame

/-! Vocabulary for statements about `HRPOpt` objects and tables with missing numbers. -/

noncomputable section

namespace Verif.HrpObj
open Verif.Frames

variable {ι κ : Type}

/-- The numbers in column `j`. -/
def observed (f : Frame ι κ) (j : ℕ) : List ℝ := f.rows.filterMap fun r => r.2.getD j none

/-- The numbers in columns `i` and `j` on the days that have both. -/
def together (f : Frame ι κ) (i j : ℕ) : List (ℝ × ℝ) :=
  f.rows.filterMap fun r => (r.2.getD i none).bind fun a => (r.2.getD j none).map fun b => (a, b)

/-- Average return of asset `j` over a year of `freq` periods. -/
def annualMean (f : Frame ι κ) (freq : ℝ) (j : ℕ) : ℝ := Returns.avg (observed f j) * freq

/-- Sample covariance of assets `i` and `j` over a year of `freq` periods. -/
def annualCov (f : Frame ι κ) (freq : ℝ) (i j : ℕ) : ℝ :=
  Returns.sampleCov ((together f i j).map Prod.fst) ((together f i j).map Prod.snd) * freq

end Verif.HrpObj
