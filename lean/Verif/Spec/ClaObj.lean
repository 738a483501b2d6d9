import Verif.Props.Perf

/-! What the numbers of a frontier must be: stated with the data and the weights only. -/

noncomputable section

namespace Verif.ClaObj
open Verif.Base Verif.Perf

variable {n : ℕ}

/-- The volatility of weights `w`: NaN if the "variance" is negative. -/
def Volatility (S : Fin n → Fin n → ℝ) (w : Fin n → ℝ) (x : Flt ℝ) : Prop :=
  (0 ≤ specVariance w S → x = .fin (Real.sqrt (specVariance w S))) ∧ (specVariance w S < 0 → x = .nan)

/-- Returns `mus` and volatilities `sigmas` belong to the weights `ws`, one by one. -/
def Belongs (m : Fin n → ℝ) (S : Fin n → Fin n → ℝ) (mus : List ℝ) (sigmas : List (Flt ℝ)) (ws : List (Fin n → ℝ)) : Prop :=
  List.Forall₂ (fun mu w => mu = specReturn w m) mus ws ∧ List.Forall₂ (fun x w => Volatility S w x) sigmas ws

end Verif.ClaObj
