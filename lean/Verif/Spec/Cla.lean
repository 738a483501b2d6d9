import Verif.Model.Cla

/-! Specification vocabulary for the critical line algorithm: only the problem data is used. -/

namespace Verif.Cla

variable {K : Type} [Field K] [LinearOrder K] [IsStrictOrderedRing K]
variable {n : ℕ}

/-- A portfolio within the bounds and fully invested. -/
def Feasible (p : Problem n K) (x : Fin n → K) : Prop :=
  (∀ i, p.lB i ≤ x i ∧ x i ≤ p.uB i) ∧ ∑ i, x i = 1

/-- The same up to a tolerance. -/
def Near (p : Problem n K) (tol : K) (x : Fin n → K) : Prop :=
  |(∑ i, x i) - 1| ≤ tol ∧ ∀ i, p.lB i - tol ≤ x i ∧ x i ≤ p.uB i + tol

/-- Expected return of a portfolio. -/
def expRet (p : Problem n K) (x : Fin n → K) : K := ∑ i, p.mean i * x i

/-- Variance of a portfolio. -/
def var (p : Problem n K) (x : Fin n → K) : K := ∑ i, x i * ∑ j, p.cov i j * x j

/-- A portfolio of maximum return with every weight but that of `j` at a bound, the upper one for expected returns above
that of `j` and the lower one for those below. -/
def InitOk (p : Problem n K) (j : Fin n) (w : Fin n → K) : Prop :=
  Feasible p w ∧ (∀ i, i ≠ j → (w i = p.lB i ∧ p.mean i ≤ p.mean j) ∨ (w i = p.uB i ∧ p.mean j ≤ p.mean i)) ∧
    ∀ x, Feasible p x → ∑ i, x i * p.mean i ≤ ∑ i, w i * p.mean i

def SymmCov (p : Problem n K) : Prop := ∀ i j, p.cov i j = p.cov j i

def PosSemidef (p : Problem n K) : Prop := ∀ x : Fin n → K, 0 ≤ var p x

def PosDef (p : Problem n K) : Prop := ∀ x : Fin n → K, (∃ i, x i ≠ 0) → 0 < var p x

/-- The lines of `self.w`, `self.ls`, `self.g`, `self.f` read side by side. -/
def rowsOf (s : State n K) : List ((Fin n → K) × Option K × Option K × List (Fin n)) :=
  s.w.zip (s.ls.zip (s.g.zip s.f))

/-- The four result lists have the same length. -/
def Aligned (s : State n K) : Prop :=
  s.ls.length = s.w.length ∧ s.g.length = s.w.length ∧ s.f.length = s.w.length

end Verif.Cla
