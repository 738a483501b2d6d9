import Verif.Spec.Risk

/-! The shrinkage intensities of Ledoit and Wolf (2003, 2004), written entry by entry. -/

namespace Verif.Risk

variable {t n : ℕ}

/-- Deviation of a series from its mean. -/
noncomputable def dev (a : Fin t → ℝ) (s : Fin t) : ℝ := a s - meanOf a

/-- `π_ij`: how much the products of deviations vary around `S_ij`. -/
noncomputable def lwPi (X : Matrix (Fin t) (Fin n) ℝ) (S : Matrix (Fin n) (Fin n) ℝ) (i j : Fin n) : ℝ :=
  meanOf fun s => (dev (series X i) s * dev (series X j) s - S i j) ^ 2

/-- Sum over pairs of different assets. -/
noncomputable def offSum (f : Fin n → Fin n → ℝ) : ℝ := ∑ i, ∑ j ∈ Finset.univ.erase i, f i j

/-- One-factor target off the diagonal. -/
noncomputable def lwFactor (X : Matrix (Fin t) (Fin n) ℝ) (i j : Fin n) : ℝ :=
  popCov (series X i) (market X) * popCov (series X j) (market X) / popCov (market X) (market X)

/-- `ρ_ij` for the one-factor target: covariance between the sample and the target entries. -/
noncomputable def lwRhoFactor (X : Matrix (Fin t) (Fin n) ℝ) (i j : Fin n) : ℝ :=
  let v := popCov (market X) (market X)
  let bi := popCov (series X i) (market X)
  let bj := popCov (series X j) (market X)
  meanOf (fun s =>
    (bj * v * dev (series X i) s + bi * v * dev (series X j) s - bi * bj * dev (market X) s) / v ^ 2 *
      dev (market X) s * dev (series X i) s * dev (series X j) s) -
    lwFactor X i j * popCov (series X i) (series X j)

/-- `ϑ_ii,ij`: covariance between the sample variance of `i` and the sample covariance of `i`, `j`. -/
noncomputable def lwTheta (X : Matrix (Fin t) (Fin n) ℝ) (S : Matrix (Fin n) (Fin n) ℝ) (i j : Fin n) : ℝ :=
  meanOf fun s => (dev (series X i) s ^ 2 - S i i) * (dev (series X i) s * dev (series X j) s - S i j)

/-- `ρ_ij` for the constant-correlation target. -/
noncomputable def lwRhoCorr (X : Matrix (Fin t) (Fin n) ℝ) (S : Matrix (Fin n) (Fin n) ℝ) (i j : Fin n) : ℝ :=
  meanCorrelation S / 2 *
    (Real.sqrt (S j j) / Real.sqrt (S i i) * lwTheta X S i j +
      Real.sqrt (S i i) / Real.sqrt (S j j) * lwTheta X S j i)

/-- The intensity `(π - ρ) / γ / t`, kept within [0, 1]. -/
noncomputable def lwIntensity (t : ℕ) (p r g : ℝ) : ℝ := max 0 (min 1 ((p - r) / g / t))

end Verif.Risk
