import Verif.Props.Cla

/-! Concrete runs of the critical line algorithm, meeting the hypotheses of C18 and C19. -/

namespace Verif.Cla
open Verif.Py

variable {n : ℕ}

/-- The weights of a result, as lists. -/
def listW (s : Option (State n ℚ × Except PyErr Unit)) : Option (List (List ℚ)) :=
  match s with
  | some (s, .ok _) => some (s.w.map (fun w => (List.finRange n).map w))
  | _ => none

/-- Hypotheses met: a run that purges a point and leaves four. -/
example : listW (solve p3 smallInv 10 {}) = some [[1, 0, 0], [1, 0, 0], [3/4, 1/4, 0], [1/10, 0, 9/10]] := by
  decide +kernel

/-- The three methods do return on the example (the ratio here is return over variance, to stay in `ℚ`). -/
example : (match maxSharpe p3 smallInv (fun w => ret p3 w / variance p3 w) 10 {} with
      | some (_, .ok _) => true | _ => false) = true ∧
    (match minVolatility p3 smallInv 10 {} with
      | some (_, .ok w) => decide ((List.finRange 3).map w = [1/10, 0, 9/10]) | _ => false) = true ∧
    (match efficientFrontier p3 smallInv 10 12 {} with
      | some (_, .ok ws) => decide (ws.length = 7) | _ => false) = true := by
  refine ⟨?_, ?_, ?_⟩ <;> decide +kernel

end Verif.Cla
