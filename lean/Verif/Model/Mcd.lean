import Verif.Model.Risk

/-!
Model of `min_cov_determinant` (risk_models.py:287-317).  As in `Model/Risk`, arguments that are not data frames and
warnings are left out, and so is the ImportError without scikit-learn.
-/

namespace Verif.Risk
open Verif.Py Verif.Frames Verif.Returns

variable {ι κ ρ : Type}

/-- `X.dropna().values` (risk_models.py:314): the rows without missing values. -/
def completeRows (f : Frame ι κ) : List (List ℝ) := f.rows.filterMap (fun r => r.2.mapM id)

/-- A list of rows as an array with `n` columns. -/
def asArray (n : ℕ) (rows : List (List ℝ)) : Matrix (Fin rows.length) (Fin n) ℝ :=
  Matrix.of fun s j => (rows.get s).getD j 0

/-- `sklearn.covariance.fast_mcd(X, random_state)[1]`; `ρ` is the type of seeds. -/
structure FastMcd (ρ : Type) where
  run : ρ → {t n : ℕ} → Matrix (Fin t) (Fin n) ℝ → Except PyErr (Matrix (Fin n) (Fin n) ℝ)

/-- The estimate from the labels and the array (risk_models.py:315-317). -/
noncomputable def mcdOf (E : Eigh) (S : FastMcd ρ) (cols : List κ) (rows : List (List ℝ)) (freq : ℝ) (seed : ρ)
    (fix : String) : Except PyErr (CovFrame κ) :=
  match S.run seed (asArray cols.length rows) with
  | .error e => .error e
  | .ok C => fixFrame E fix cols (fun i j => some (C i j * freq))

/-- `min_cov_determinant` (risk_models.py:287-317); the labels are those of `prices` (line 307). -/
noncomputable def minCovDeterminant (E : Eigh) (S : FastMcd ρ) (prices : Frame ι κ) (returnsData : Bool) (freq : ℝ)
    (seed : ρ) (log : Bool) (fix : String) : Except PyErr (CovFrame κ) :=
  mcdOf E S prices.cols (completeRows (returnsIn returnsData log prices)) freq seed fix

end Verif.Risk
