import Mathlib.Data.Real.Archimedean
import Mathlib.Algebra.BigOperators.Fin
import Mathlib.Analysis.Real.Sqrt
import Mathlib.Data.Matrix.Mul

/-! Tail risk measures of a finite history. -/

noncomputable section

namespace Verif.Convex

variable {T : ℕ}

/-- The averages of the losses `L` over a share `q` of the days: each day may be taken in full or in part. -/
def shares (q : ℝ) (L : Fin T → ℝ) : Set ℝ :=
  {y | ∃ c : Fin T → ℝ, (∀ t, 0 ≤ c t ∧ c t ≤ 1) ∧ ∑ t, c t = q ∧ y = (∑ t, c t * L t) / q}

/-- The mean of the worst `q` days. -/
def tailMean (q : ℝ) (L : Fin T → ℝ) : ℝ := sSup (shares q L)

/-- Wealth after `k` days, without compounding, starting at 0. -/
def cum (r : Fin T → ℝ) (k : ℕ) : ℝ := ∑ t with t.val < k, r t

/-- How far wealth after `k` days is below its highest value so far. -/
def drawdown (r : Fin T → ℝ) (k : ℕ) : ℝ :=
  (Finset.range (k + 1)).sup' ⟨0, by simp⟩ (fun j => cum r j - cum r k)

/-- The mean squared shortfall below `b`. -/
def semivar (b : ℝ) (r : Fin T → ℝ) : ℝ := (∑ t, min (r t - b) 0 ^ 2) / T

/-- The semideviation over `f` periods. -/
def semidev (f b : ℝ) (r : Fin T → ℝ) : ℝ := Real.sqrt (f * semivar b r)

variable {n : ℕ}

/-- The daily returns of a portfolio. -/
def daily (R : Fin T → Fin n → ℝ) (w : Fin n → ℝ) (t : Fin T) : ℝ := R t ⬝ᵥ w

/-- Conditional value at risk: the mean loss on the worst share `1 - β` of the days. -/
def portCvar (β : ℝ) (R : Fin T → Fin n → ℝ) (w : Fin n → ℝ) : ℝ := tailMean ((1 - β) * T) (fun t => -daily R w t)

/-- Conditional drawdown at risk: the mean drawdown on the worst share `1 - β` of the days. -/
def portCdar (β : ℝ) (R : Fin T → Fin n → ℝ) (w : Fin n → ℝ) : ℝ :=
  tailMean ((1 - β) * T) (fun t : Fin T => drawdown (daily R w) (t + 1))

end Verif.Convex
