import Verif.Model.BlackLitterman

/-! When the documentation says that `tau` does not matter. -/

namespace Verif.BL

/-- The uncertainty of the views is not a matrix given by the caller: the default, or Idzorek's
method with confidences none of which is zero. -/
def Relative : OmegaArg → Prop
  | .default => True
  | .idzorek (some (.seq c)) => ∀ q ∈ c, q ≠ 0
  | .idzorek (some (.ndarray c)) => ∀ q ∈ c, q ≠ 0
  | _ => False

end Verif.BL
