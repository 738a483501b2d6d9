import Verif.Spec.Tradeoff
import Verif.Spec.Retarget
import Mathlib.Topology.Compactness.Compact
import Mathlib.Topology.MetricSpace.ProperSpace.Real

/-! Requests that some portfolio meets. -/

noncomputable section

namespace Verif.Convex
open Matrix

variable {n : ℕ}

/-- What a call asks of the portfolio beyond being admissible, in terms of its return and risk. -/
def Meets (D : Data n) : Call n → (Fin n → ℝ) → Prop
  | .efficientRisk t _, w => risk D w ≤ t
  | .efficientReturn _ t _, w => ∀ mu, D.mu = some mu → t ≤ w ⬝ᵥ mu
  | _, _ => True

/-- The portfolios the user allows. -/
def allowed (U : Uni n) (cfg : Cfg n) (upar : ℕ → ℝ) (mn : Bool) : Set (Fin n → ℝ) :=
  {w | ∃ usr, Admissible U cfg upar mn w usr}

/-- The bounds in force are finite. -/
def Finite (cfg : Cfg n) (mn : Bool) : Prop :=
  (mn = true ∧ ∀ i, 0 ≤ cfg.lb i) ∨ ∃ lb ub : Fin n → ℝ, (∀ i, cfg.lb i = lb i) ∧ ∀ i, cfg.ub i = ub i

/-- The user's constraints are about the weights alone and not strict: limits of portfolios that satisfy them do. -/
def ClosedCons (U : Uni n) (cfg : Cfg n) (upar : ℕ → ℝ) : Prop :=
  ∀ i, Added.usr i ∈ cfg.cons → ∃ C : Set (Fin n → ℝ), IsClosed C ∧ ∀ w usr, (U.con i).sat ⟨w, usr, upar⟩ ↔ w ∈ C

/-- The objectives the user has added are together a continuous function of the weights (such as the sums of squares of
`L2_reg`). -/
def ContObjs (U : Uni n) (cfg : Cfg n) (upar : ℕ → ℝ) : Prop :=
  ∃ g : (Fin n → ℝ) → ℝ, Continuous g ∧
    ∀ w usr, (cfg.objs.map fun i => (U.obj i).val ⟨w, usr, upar⟩).sum = (g w : EReal)

end Verif.Convex
