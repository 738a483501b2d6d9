import Verif.Model.Frame
import Mathlib.Logic.Equiv.Defs

/-! The same returns, written down differently. -/

namespace Verif.Risk
open Verif.Frames

/-- The returns of `f` are all there. -/
structure Filled {ι κ : Type} (f : Frame ι κ) : Prop where
  shaped : f.Shaped
  complete : f.Complete

/-- `g` holds the returns of `f` with the days and the assets in another order, in another unit (`k`
units of `g` to one of `f`), and with the number `b j` added to every return of asset `j`. -/
structure Restated {ι ι' κ : Type} (f : Frame ι κ) (g : Frame ι' κ) (k : ℝ)
    (b : Fin g.cols.length → ℝ) (days : Fin g.rows.length ≃ Fin f.rows.length)
    (assets : Fin g.cols.length ≃ Fin f.cols.length) : Prop where
  name : ∀ j, g.cols[j] = f.cols[assets j]
  value : ∀ s j x, (f.rows[days s]).2[(assets j).1]? = some (some x) →
    (g.rows[s]).2[j.1]? = some (some (k * x + b j))

end Verif.Risk
