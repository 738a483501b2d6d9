import Verif.Spec.Cla
import Mathlib.LinearAlgebra.Matrix.Determinant.Basic

/-! What the portfolios of the critical line are optimal for; only the problem data is used. -/

namespace Verif.Cla

variable {K : Type} [Field K] [LinearOrder K] [IsStrictOrderedRing K]
variable {n : ℕ}

/-- Covariance of asset `i` with the portfolio. -/
def marg (p : Problem n K) (w : Fin n → K) (i : Fin n) : K := ∑ j, p.cov i j * w j

/-- Allowed, and no allowed portfolio has a smaller half variance minus `l` times expected return. -/
def Best (p : Problem n K) (l : K) (w : Fin n → K) : Prop :=
  Feasible p w ∧ ∀ x, Feasible p x → var p w / 2 - l * expRet p w ≤ var p x / 2 - l * expRet p x

/-- Allowed, and no allowed portfolio has at least its expected return and a smaller variance. -/
def Efficient (p : Problem n K) (w : Fin n → K) : Prop :=
  Feasible p w ∧ ∀ x, Feasible p x → expRet p w ≤ expRet p x → var p w ≤ var p x

/-- First-order conditions at the multiplier `l`, with level `g`: an asset that could be sold is not above the level, one
that could be bought is not below it. -/
def Kkt (p : Problem n K) (l g : K) (w : Fin n → K) : Prop :=
  Feasible p w ∧ ∀ i, (p.lB i < w i → marg p w i ≤ g + l * p.mean i) ∧ (w i < p.uB i → g + l * p.mean i ≤ marg p w i)

/-- At a bound, and exactly at the level. -/
def Undecided (p : Problem n K) (l g : K) (w : Fin n → K) (i : Fin n) : Prop :=
  (w i = p.lB i ∨ w i = p.uB i) ∧ marg p w i = g + l * p.mean i

/-- Nothing happens twice at once: nowhere on the frontier are two assets undecided while a third is at the level, and at
its end, the portfolio of least variance, not one while another is. -/
structure NoTies (p : Problem n K) : Prop where
  apart : ∀ l g w i k j, 0 ≤ l → Kkt p l g w → i ≠ k → i ≠ j → k ≠ j → Undecided p l g w i → Undecided p l g w k →
    marg p w j ≠ g + l * p.mean j
  least : ∀ g w i j, Kkt p 0 g w → i ≠ j → Undecided p 0 g w i → marg p w j ≠ g

/-- Contract of `np.linalg.inv`: a matrix that can be inverted is. -/
def Inv.Complete (inv : Inv K) : Prop := ∀ m (A : Matrix (Fin m) (Fin m) K), A.det ≠ 0 → ∃ B, inv m A = .ok B

/-- Whichever assets are free, each of them is traded as the multiplier changes: `d` is the direction in which the optimal
weights of the assets `F` move.  For two assets this says that their expected returns differ. -/
def NoFlat (p : Problem n K) : Prop := ∀ (F : Finset (Fin n)) (i : Fin n) (d : Fin n → K) (g : K), 2 ≤ F.card → i ∈ F →
  (∀ k, k ∉ F → d k = 0) → ∑ k, d k = 0 → (∀ k, k ∈ F → marg p d k = g + p.mean k) → d i ≠ 0

end Verif.Cla
