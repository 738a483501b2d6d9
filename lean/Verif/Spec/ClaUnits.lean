import Verif.Model.ClaObj

/-! The same CLA problem and the same answers in other units of return and covariance. -/

noncomputable section

namespace Verif.ClaObj
open Verif.Py Verif.Base Verif.Cla

variable {n : ℕ}

/-- The problem with returns multiplied by `a` and covariances by `c`, e.g. 100 and 10000 for percent. -/
def inUnits (a c : ℝ) (p : Problem n ℝ) : Problem n ℝ :=
  { p with mean := fun i => a * p.mean i, cov := fun i j => c * p.cov i j }

/-- A float in another unit. -/
def scaled (x : ℝ) : Flt ℝ → Flt ℝ
  | .fin y => .fin (x * y)
  | .nan => .nan
  | .posInf => .posInf
  | .negInf => .negInf

/-- A frontier in other units: the weights stay. -/
def frontierIn (a c : ℝ) (f : Frontier n) : Frontier n :=
  (f.1.map (a * ·), f.2.1.map (scaled (Real.sqrt c)), f.2.2)

/-- Return, volatility and Sharpe ratio in other units. -/
def reportIn (a c : ℝ) (r : Option (Flt ℝ) × Flt ℝ × Option (Flt ℝ)) : Option (Flt ℝ) × Flt ℝ × Option (Flt ℝ) :=
  (r.1.map (scaled a), scaled (Real.sqrt c) r.2.1, r.2.2.map (scaled (a / Real.sqrt c)))

/-- An answer in other units: weights and exceptions stay. -/
def outIn (a c : ℝ) : Out n → Out n
  | .weights w => .weights w
  | .frontier f => .frontier (frontierIn a c f)
  | .picture q => .picture ⟨frontierIn a c q.line, reportIn a c q.marked, q.markedWeights,
      q.assets.map fun x => (scaled (Real.sqrt c) x.1, a * x.2)⟩
  | .raised e => .raised e

/-- Contract of `np.linalg.inv` beyond soundness: whether it refuses a matrix does not depend on the unit. -/
def Unitless (inv : Cla.Inv ℝ) : Prop :=
  ∀ m A e (c : ℝ), 0 < c → inv m A = .error e → inv m (fun i j => c * A i j) = .error e

end Verif.ClaObj
