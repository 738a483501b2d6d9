import Verif.Model.History
import Verif.Spec.Portfolio

/-! What a plotted frontier should show. -/

noncomputable section

namespace Verif.Convex
open Verif.Py Verif.Base Matrix

variable {n : ℕ}

/-- What calls on one object return when they are made one after the other. -/
def outcomes (U : Uni n) (S : Solver n) (D : Data n) :
    List (Call n) → OState n → Heap n → List (Except PyErr (Option (Fin n → ℝ)))
  | [], _, _ => []
  | c :: cs, o, h => (run U S D c o h).1 :: outcomes U S D cs (run U S D c o h).2.1 (run U S D c o h).2.2

/-- Return and volatility of a portfolio, as a point of the plot. -/
def pointOf (cov : Matrix (Fin n) (Fin n) ℝ) (mu w : Fin n → ℝ) : Option ℝ × Flt ℝ := (some (w ⬝ᵥ mu), .fin (vol cov w))

/-- Some portfolio is best, with a finite objective. -/
def Solvable (U : Uni n) (cfg : Cfg n) (upar : ℕ → ℝ) (mn : Bool) (req : (Fin n → ℝ) → Prop) (f : (Fin n → ℝ) → ℝ) :
    Prop :=
  ∃ w usr, ∃ v : ℝ, Best U cfg upar mn req f w usr ∧ total U cfg upar f w usr = v

/-- `p` shows return and volatility of a best portfolio, with weights rounded to 16 decimals. -/
def Shows (U : Uni n) (cfg : Cfg n) (upar : ℕ → ℝ) (cov : Matrix (Fin n) (Fin n) ℝ) (mu : Fin n → ℝ)
    (req : (Fin n → ℝ) → Prop) (f : (Fin n → ℝ) → ℝ) (p : Option ℝ × Flt ℝ) : Prop :=
  ∃ w s usr, Rounded w s ∧ Best U cfg upar false req f s usr ∧ p = pointOf cov mu w

end Verif.Convex
