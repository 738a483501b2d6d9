import Verif.Model.Mcd

/-! What the robust covariance is measured against. -/

namespace Verif.Risk
open Verif.Frames

/-- Average of column `i` over the days `D`. -/
noncomputable def dayMean {t n : ℕ} (X : Matrix (Fin t) (Fin n) ℝ) (D : Finset (Fin t)) (i : Fin n) : ℝ :=
  (∑ s ∈ D, X s i) / D.card

/-- Covariance of columns `i` and `j` over the days `D`, with divisor the number of days. -/
noncomputable def dayCov {t n : ℕ} (X : Matrix (Fin t) (Fin n) ℝ) (D : Finset (Fin t)) : Matrix (Fin n) (Fin n) ℝ :=
  Matrix.of fun i j => (∑ s ∈ D, (X s i - dayMean X D i) * (X s j - dayMean X D j)) / D.card

/-- Contract of `fast_mcd`: if it answers, with the empirical covariance of some of the rows (its support); with fewer
than two rows it raises ValueError (`check_array`). -/
structure FastMcd.Sound {ρ : Type} (S : FastMcd ρ) : Prop where
  support : ∀ (seed : ρ) {t n : ℕ} (X : Matrix (Fin t) (Fin n) ℝ) C, S.run seed X = .ok C →
    ∃ D : Finset (Fin t), D.Nonempty ∧ C = dayCov X D
  short : ∀ (seed : ρ) {t n : ℕ} (X : Matrix (Fin t) (Fin n) ℝ), t < 2 → S.run seed X = .error .valueError

/-- The days on which every asset has a return. -/
def FullDay {ι : Type} (r : ι × List Cell) : Prop := ∀ c ∈ r.2, c ≠ none

end Verif.Risk
