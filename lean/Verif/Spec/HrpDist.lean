import Verif.Spec.HrpObj

/-! What hierarchical clustering is to be based on. -/

noncomputable section

namespace Verif.HrpObj
open Verif.Frames

variable {ι κ : Type}

/-- Correlation of assets `i` and `j` over the days that have both. -/
def correlation (f : Frame ι κ) (i j : ℕ) : ℝ :=
  annualCov f 1 i j / (Real.sqrt (Returns.sampleCov ((together f i j).map Prod.fst) ((together f i j).map Prod.fst)) *
    Real.sqrt (Returns.sampleCov ((together f i j).map Prod.snd) ((together f i j).map Prod.snd)))

/-- The documented distance: 0 for correlation 1, and 1 for correlation -1. -/
def corrDistance (rho : ℝ) : ℝ := Real.sqrt ((1 - rho) / 2)

/-- Assets `i` and `j` have at least two days in common, and both vary on these days. -/
def Vary (f : Frame ι κ) (i j : ℕ) : Prop :=
  2 ≤ (together f i j).length ∧
  0 < Returns.sampleCov ((together f i j).map Prod.fst) ((together f i j).map Prod.fst) ∧
  0 < Returns.sampleCov ((together f i j).map Prod.snd) ((together f i j).map Prod.snd)

/-- The same returns in another unit, and with the number `b j` added to each return of asset `j`. -/
def restated (k : ℝ) (b : ℕ → ℝ) (f : Frame ι κ) : Frame ι κ :=
  { f with rows := f.rows.map fun r => (r.1, r.2.mapIdx fun j c => c.map fun x => k * x + b j) }

end Verif.HrpObj
