import Mathlib.LinearAlgebra.Matrix.PosDef
import Verif.Model.Returns
import Verif.Model.Perf

/-!
Model of `pypfopt/risk_models.py`.

Covariance frames carry their labels (the same for rows and columns) and a real matrix.  No function
in that file changes a frame in place, so frames are passed by value.  Not modelled: arguments that
are not data frames (converted with a warning), warnings, and a frame with infinite values.
`min_cov_determinant` is in `Model/Mcd`.
-/

namespace Verif.Risk
open Verif.Py Verif.Frames Verif.Base Verif.Perf Verif.Returns
open scoped Matrix

/-- The symmetric matrix given by the lower triangle, which is all that `np.linalg.cholesky` and
`np.linalg.eigh` read. -/
def lowerSym {n : ℕ} (M : Matrix (Fin n) (Fin n) ℝ) : Matrix (Fin n) (Fin n) ℝ :=
  Matrix.of fun i j => if j ≤ i then M i j else M j i

open Classical in
/-- `_is_positive_semidefinite` (risk_models.py:32-48).  `np.linalg.cholesky` succeeds exactly on
positive definite input (exact arithmetic). -/
noncomputable def isPsd {n : ℕ} (M : Matrix (Fin n) (Fin n) ℝ) : Bool :=
  decide ((lowerSym (M + (1e-16 : ℝ) • (1 : Matrix (Fin n) (Fin n) ℝ))).PosDef)

/-- `np.linalg.eigh`: eigenvalues and the matrix of eigenvectors. -/
structure Eigh where
  run : {n : ℕ} → Matrix (Fin n) (Fin n) ℝ → (Fin n → ℝ) × Matrix (Fin n) (Fin n) ℝ

/-- Contract of `np.linalg.eigh`: an orthogonal eigendecomposition of the lower triangle. -/
structure Eigh.Sound (E : Eigh) : Prop where
  orth : ∀ {n : ℕ} (M : Matrix (Fin n) (Fin n) ℝ), (E.run M).2 * (E.run M).2ᵀ = 1
  decomp : ∀ {n : ℕ} (M : Matrix (Fin n) (Fin n) ℝ),
    lowerSym M = (E.run M).2 * Matrix.diagonal (E.run M).1 * (E.run M).2ᵀ

/-- `fix_nonpositive_semidefinite` (risk_models.py:51-98) on the values.  `iInf` over the finite index
is `np.min`; it is only reached with at least one asset. -/
noncomputable def fixPsd (E : Eigh) (method : String) {n : ℕ} (M : Matrix (Fin n) (Fin n) ℝ) :
    Except PyErr (Matrix (Fin n) (Fin n) ℝ) :=
  if isPsd M then .ok M
  else
    let qV := E.run M
    if method = "spectral" then
      .ok (qV.2 * Matrix.diagonal (fun i => if 0 < qV.1 i then qV.1 i else 0) * qV.2ᵀ)
    else if method = "diag" then
      .ok (M - (1.1 * iInf qV.1) • (1 : Matrix (Fin n) (Fin n) ℝ))
    else .error .notImplemented

/-- A covariance data frame; index and columns carry the same labels. -/
structure CovFrame (κ : Type) where
  labels : List κ
  val : Matrix (Fin labels.length) (Fin labels.length) ℝ

open Classical in
/-- Values of a frame of cells without missing entries. -/
noncomputable def allSome {n : ℕ} (M : Matrix (Fin n) (Fin n) Cell) :
    Option (Matrix (Fin n) (Fin n) ℝ) :=
  if ∀ i j, (M i j).isSome then some (Matrix.of fun i j => (M i j).getD 0) else none

variable {ι κ : Type}

/-- `fix_nonpositive_semidefinite` on a labelled frame (labels rebuilt, risk_models.py:94-96).  With a
missing entry the Cholesky test fails and the outcome of `eigh` depends on LAPACK (LinAlgError or NaN);
simplified to LinAlgError, no theorem is about that case. -/
noncomputable def fixFrame (E : Eigh) (method : String) (labels : List κ)
    (M : Matrix (Fin labels.length) (Fin labels.length) Cell) : Except PyErr (CovFrame κ) :=
  match allSome M with
  | none => .error .linAlg
  | some V => (fixPsd E method V).map (CovFrame.mk labels)

/-- The returns an estimator works with (risk_models.py:169-172 and the like). -/
noncomputable def returnsIn (returnsData log : Bool) (f : Frame ι κ) : Frame ι κ :=
  if returnsData then f else returnsOf log f

/-- `sample_cov` (risk_models.py:149-175). -/
noncomputable def sampleCovariance (E : Eigh) (prices : Frame ι κ) (returnsData : Bool) (freq : ℝ)
    (log : Bool) (fix : String) : Except PyErr (CovFrame κ) :=
  let r := returnsIn returnsData log prices
  fixFrame E fix r.cols (fun i j => (covPair (r.col i) (r.col j)).map (· * freq))

/-- One cell of `np.fmin(returns - benchmark, 0)` (risk_models.py:216): `fmin` ignores NaN. -/
noncomputable def drop (benchmark : ℝ) : Cell → ℝ
  | none => 0
  | some x => min (x - benchmark) 0

/-- `semicovariance` (risk_models.py:178-220). -/
noncomputable def semicovariance (E : Eigh) (prices : Frame ι κ) (returnsData : Bool)
    (benchmark freq : ℝ) (log : Bool) (fix : String) : Except PyErr (CovFrame κ) :=
  let r := returnsIn returnsData log prices
  let T := r.rows.length
  fixFrame E fix r.cols (fun i j =>
    if T = 0 then none
    else some ((List.zipWith (· * ·) ((r.col i).map (drop benchmark))
      ((r.col j).map (drop benchmark))).sum / T * freq))

/-- `x - m` on cells. -/
noncomputable def cellSub : Cell → Cell → Cell
  | some a, some b => some (a - b)
  | _, _ => none

/-- `x * y` on cells. -/
noncomputable def cellMul : Cell → Cell → Cell
  | some a, some b => some (a * b)
  | _, _ => none

/-- `x + y` on cells. -/
noncomputable def cellAdd : Cell → Cell → Cell
  | some a, some b => some (a + b)
  | _, _ => none

/-- `_pair_exp_cov` (risk_models.py:223-240). -/
noncomputable def pairExpCov (span : ℝ) (x y : List Cell) : Except PyErr Cell :=
  ewmLast span (List.zipWith (fun a b => cellMul (cellSub a (Frames.mean x)) (cellSub b (Frames.mean y)))
    x y)

/-- The index pairs of `for i in range(N): for j in range(i, N)` (risk_models.py:277-278). -/
def upperPairs (n : ℕ) : List (Fin n × Fin n) :=
  (List.finRange n).flatMap (fun i => ((List.finRange n).filter (fun j => i ≤ j)).map (fun j => (i, j)))

/-- `S[i, j] = S[j, i] = v`. -/
def setBoth {n : ℕ} (S : Matrix (Fin n) (Fin n) Cell) (i j : Fin n) (v : Cell) :
    Matrix (Fin n) (Fin n) Cell :=
  Matrix.of fun a b => if (a = i ∧ b = j) ∨ (a = j ∧ b = i) then v else S a b

/-- The loop filling `S` (risk_models.py:276-281). -/
noncomputable def expLoop (span : ℝ) {n : ℕ} (col : Fin n → List Cell) (l : List (Fin n × Fin n))
    (S : Matrix (Fin n) (Fin n) Cell) : Except PyErr (Matrix (Fin n) (Fin n) Cell) :=
  l.foldlM (fun S p => (pairExpCov span (col p.1) (col p.2)).map (setBoth S p.1 p.2)) S

/-- `exp_cov` (risk_models.py:243-284). -/
noncomputable def expCovariance (E : Eigh) (prices : Frame ι κ) (returnsData : Bool)
    (span freq : ℝ) (log : Bool) (fix : String) : Except PyErr (CovFrame κ) :=
  let r := returnsIn returnsData log prices
  let n := r.cols.length
  match expLoop span (n := n) (fun i => r.col i) (upperPairs n) (fun _ _ => some 0) with
  | .error e => .error e
  | .ok S => fixFrame E fix r.cols (fun i j => (S i j).map (· * freq))

/-! ### Conversions -/

/-- `cov_to_corr` (risk_models.py:320-335).  A zero or negative variance makes its row and column
NaN or inf, here `none`. -/
noncomputable def covToCorr {n : ℕ} (S : Matrix (Fin n) (Fin n) ℝ) : Matrix (Fin n) (Fin n) Cell :=
  let Dinv := Matrix.diagonal (fun i => 1 / Real.sqrt (S i i))
  Matrix.of fun i j => if 0 < S i i ∧ 0 < S j j then some ((Dinv * (S * Dinv)) i j) else none

/-- `corr_to_cov` (risk_models.py:338-353). -/
def corrToCov {n : ℕ} (R : Matrix (Fin n) (Fin n) ℝ) (s : Fin n → ℝ) : Matrix (Fin n) (Fin n) ℝ :=
  Matrix.of fun i j => R i j * (s i * s j)

/-! ### `CovarianceShrinkage` -/

/-- `CovarianceShrinkage.__init__` (risk_models.py:371-402): the returns kept as `self.X`. -/
noncomputable def shrinkX (returnsData log : Bool) (prices : Frame ι κ) : Frame ι κ :=
  (returnsIn returnsData log prices).dropnaAll

/-- `self.S = self.X.cov().values` (risk_models.py:401). -/
noncomputable def shrinkS (X : Frame ι κ) : Matrix (Fin X.cols.length) (Fin X.cols.length) Cell :=
  Matrix.of fun i j => covPair (X.col i) (X.col j)

/-- `_format_and_annualize` (risk_models.py:404-416). -/
noncomputable def annualize (E : Eigh) (labels : List κ) (freq : ℝ)
    (M : Matrix (Fin labels.length) (Fin labels.length) Cell) : Except PyErr (CovFrame κ) :=
  fixFrame E "spectral" labels (fun i j => (M i j).map (· * freq))

/-- `delta * F + (1 - delta) * S` on cells. -/
noncomputable def blend {n : ℕ} (delta : ℝ) (F S : Matrix (Fin n) (Fin n) Cell) :
    Matrix (Fin n) (Fin n) Cell :=
  Matrix.of fun i j => cellAdd (cellMul (some delta) (F i j)) (cellMul (some (1 - delta)) (S i j))

/-- `np.trace(S)` on cells. -/
noncomputable def cellTrace {n : ℕ} (S : Matrix (Fin n) (Fin n) Cell) : Cell :=
  (List.ofFn fun i => S i i).foldl cellAdd (some 0)

/-- `shrunk_covariance` (risk_models.py:418-436). -/
noncomputable def manualShrink (E : Eigh) (X : Frame ι κ) (freq delta : ℝ) :
    Except PyErr (CovFrame κ) :=
  let S := shrinkS X
  let mu := (cellTrace S).map (· / (X.cols.length : ℝ))
  let F : Matrix (Fin X.cols.length) (Fin X.cols.length) Cell :=
    fun i j => cellMul (some ((1 : Matrix _ _ ℝ) i j)) mu
  annualize E X.cols freq (blend delta F S)

/-- Python's `min(a, x)` for a number `a`: `x` only if `x < a`. -/
noncomputable def pyMin (a : ℝ) : Flt ℝ → ℝ
  | .fin x => if x < a then x else a
  | .nan => a
  | .posInf => a
  | .negInf => a

/-- `max(0, min(1, k / t))` (risk_models.py:514, 567).  `-inf` gives 0, `inf` and NaN give 1. -/
noncomputable def clampDelta (t : ℕ) : Flt ℝ → ℝ
  | .negInf => 0
  | .fin k => max 0 (pyMin 1 (.fin (k / t)))
  | .posInf => max 0 (pyMin 1 .posInf)
  | .nan => max 0 (pyMin 1 .nan)

/-- `np.nan_to_num(self.X.values)` (risk_models.py:474, 529). -/
noncomputable def numX (X : Frame ι κ) : Matrix (Fin X.rows.length) (Fin X.cols.length) ℝ :=
  Matrix.of fun s j => ((X.col j)[s.1]?.getD none).getD 0

section arrays
variable {t n : ℕ} (X : Matrix (Fin t) (Fin n) ℝ)

/-- `X - X.mean(axis=0)` (risk_models.py:478, 544). -/
noncomputable def demean : Matrix (Fin t) (Fin n) ℝ :=
  Matrix.of fun s j => X s j - (∑ u, X u j) / t

/-- `np.cov(A, rowvar=False)` with at least two rows. -/
noncomputable def npCov : Matrix (Fin n) (Fin n) ℝ :=
  Matrix.of fun i j => (∑ s, demean X s i * demean X s j) / ((t : ℝ) - 1)

/-- `Xm.mean(axis=1)` (risk_models.py:479). -/
noncomputable def mktRow : Fin t → ℝ := fun s => (∑ j, demean X s j) / n

/-- `np.append(Xm, xmkt, axis=1)` (risk_models.py:482). -/
noncomputable def withMkt : Matrix (Fin t) (Fin (n + 1)) ℝ :=
  Matrix.of fun s => Fin.snoc (α := fun _ => ℝ) (demean X s) (mktRow X s)

/-- The extended `sample` (risk_models.py:482). -/
noncomputable def sampleExt : Matrix (Fin (n + 1)) (Fin (n + 1)) ℝ :=
  Matrix.of fun i j => npCov (withMkt X) i j * ((t : ℝ) - 1) / t

/-- `betas` (risk_models.py:483). -/
noncomputable def sfBeta : Fin n → ℝ := fun i => sampleExt X i.castSucc (Fin.last n)

/-- `varmkt` (risk_models.py:484). -/
noncomputable def sfVar : ℝ := sampleExt X (Fin.last n) (Fin.last n)

/-- `sample` (risk_models.py:485). -/
noncomputable def sfSample : Matrix (Fin n) (Fin n) ℝ :=
  Matrix.of fun i j => sampleExt X i.castSucc j.castSucc

/-- `F` (risk_models.py:486-487) for a nonzero market variance. -/
noncomputable def sfTarget : Matrix (Fin n) (Fin n) ℝ :=
  Matrix.of fun i j => if i = j then sfSample X i i else sfBeta X i * sfBeta X j / sfVar X

/-- `p` (risk_models.py:491-492). -/
noncomputable def sfP : ℝ :=
  1 / t * (∑ i, ∑ j, ∑ s, demean X s i ^ 2 * demean X s j ^ 2) - ∑ i, ∑ j, sfSample X i j ^ 2

/-- `rdiag` (risk_models.py:497). -/
noncomputable def sfRdiag : ℝ :=
  1 / t * (∑ s, ∑ i, (demean X s i ^ 2) ^ 2) - ∑ i, sfSample X i i ^ 2

/-- `v1` (risk_models.py:498-499). -/
noncomputable def sfV1 (i j : Fin n) : ℝ :=
  1 / t * (∑ s, demean X s i ^ 2 * (demean X s j * mktRow X s)) - sfBeta X i * sfSample X i j

/-- `roff1` (risk_models.py:500-503). -/
noncomputable def sfRoff1 : ℝ :=
  (∑ i, ∑ j, sfV1 X i j * sfBeta X j) / sfVar X - (∑ i, sfV1 X i i * sfBeta X i) / sfVar X

/-- `v3` (risk_models.py:504). -/
noncomputable def sfV3 (i j : Fin n) : ℝ :=
  1 / t * (∑ s, demean X s i * mktRow X s * (demean X s j * mktRow X s)) - sfVar X * sfSample X i j

/-- `roff3` (risk_models.py:505-508). -/
noncomputable def sfRoff3 : ℝ :=
  (∑ i, ∑ j, sfV3 X i j * (sfBeta X i * sfBeta X j)) / sfVar X ^ 2 -
    (∑ i, sfV3 X i i * sfBeta X i ^ 2) / sfVar X ^ 2

/-- `r` (risk_models.py:509-510). -/
noncomputable def sfR : ℝ := sfRdiag X + (2 * sfRoff1 X - sfRoff3 X)

/-- `delta` (risk_models.py:490, 513-514); NaN intermediate results when the market variance is 0. -/
noncomputable def sfDelta : ℝ :=
  clampDelta t (if sfVar X = 0 then .nan
    else fdiv (sfP X - sfR X) (.fin (∑ i, ∑ j, (sfSample X i j - sfTarget X i j) ^ 2)))

/-- `_ledoit_wolf_single_factor` (risk_models.py:465-518).  With fewer than two rows `np.cov` gives
NaN everywhere; with a zero market variance the off-diagonal target entries are NaN. -/
noncomputable def singleFactor : Matrix (Fin n) (Fin n) Cell × ℝ :=
  if t ≤ 1 then (Matrix.of fun _ _ => none, 1)
  else
    (blend (sfDelta X)
      (Matrix.of fun i j => if sfVar X = 0 ∧ i ≠ j then none else some (sfTarget X i j))
      (Matrix.of fun i j => some (sfSample X i j)), sfDelta X)

variable (S : Matrix (Fin n) (Fin n) ℝ)

/-- `std` (risk_models.py:535-536). -/
noncomputable def ccStd : Fin n → ℝ := fun i => Real.sqrt (S i i)

/-- `r_bar` (risk_models.py:539); NaN with one asset or a zero variance. -/
noncomputable def ccRbar : ℝ :=
  ((∑ i, ∑ j, S i j / (ccStd S i * ccStd S j)) - n) / (n * ((n : ℝ) - 1))

open Classical in
/-- Whether `r_bar` is a number. -/
noncomputable def ccDefined : Bool := decide (2 ≤ n ∧ ∀ i, 0 < S i i)

/-- `F` (risk_models.py:540-541) when `r_bar` is a number. -/
noncomputable def ccTarget : Matrix (Fin n) (Fin n) ℝ :=
  Matrix.of fun i j => if i = j then S i i else ccRbar S * (ccStd S i * ccStd S j)

/-- `pi_mat` (risk_models.py:544-546). -/
noncomputable def ccPi (i j : Fin n) : ℝ :=
  (∑ s, demean X s i ^ 2 * demean X s j ^ 2) / t -
    2 * (∑ s, demean X s i * demean X s j) * S i j / t + S i j ^ 2

/-- `theta_mat` (risk_models.py:550-557). -/
noncomputable def ccTheta (i j : Fin n) : ℝ :=
  if i = j then 0
  else (∑ s, demean X s i ^ 3 * demean X s j) / t -
    (∑ s, demean X s i * demean X s i) / t * S i j -
    (∑ s, demean X s i * demean X s j) / t * S i i + S i i * S i j

/-- `rho_hat` (risk_models.py:558-560). -/
noncomputable def ccRho : ℝ :=
  (∑ i, ccPi X S i i) + ccRbar S * ∑ i, ∑ j, 1 / ccStd S i * ccStd S j * ccTheta X S i j

/-- `delta` (risk_models.py:563-567). -/
noncomputable def ccDelta : ℝ :=
  clampDelta t (if ccDefined S then
    fdiv ((∑ i, ∑ j, ccPi X S i j) - ccRho X S) (.fin (∑ i, ∑ j, (S i j - ccTarget S i j) ^ 2))
    else .nan)

/-- `_ledoit_wolf_constant_correlation` (risk_models.py:520-571) on a sample covariance without
missing entries. -/
noncomputable def constantCorrelation : Matrix (Fin n) (Fin n) Cell × ℝ :=
  (blend (ccDelta X S)
    (Matrix.of fun i j => if ccDefined S ∨ i = j then some (ccTarget S i j) else none)
    (Matrix.of fun i j => some (S i j)), ccDelta X S)

end arrays

/-- sklearn's `ledoit_wolf` and `oas`: shrunk covariance and intensity. -/
structure Sklearn where
  ledoitWolf : {t n : ℕ} → Matrix (Fin t) (Fin n) ℝ → Matrix (Fin n) (Fin n) ℝ × ℝ
  oas : {t n : ℕ} → Matrix (Fin t) (Fin n) ℝ → Matrix (Fin n) (Fin n) ℝ × ℝ

/-- Contract of sklearn's shrinkage functions: they blend the (divisor `t`) covariance with the
identity scaled to the same trace, with an intensity in [0, 1]. -/
structure Sklearn.Sound (K : Sklearn) : Prop where
  ledoitWolf : ∀ {t n : ℕ} (X : Matrix (Fin t) (Fin n) ℝ),
    (K.ledoitWolf X).2 ∈ Set.Icc (0 : ℝ) 1 ∧ (K.ledoitWolf X).1 =
      (1 - (K.ledoitWolf X).2) • sfSample X +
        ((K.ledoitWolf X).2 * (Matrix.trace (sfSample X) / n)) • (1 : Matrix (Fin n) (Fin n) ℝ)
  oas : ∀ {t n : ℕ} (X : Matrix (Fin t) (Fin n) ℝ),
    (K.oas X).2 ∈ Set.Icc (0 : ℝ) 1 ∧ (K.oas X).1 =
      (1 - (K.oas X).2) • sfSample X +
        ((K.oas X).2 * (Matrix.trace (sfSample X) / n)) • (1 : Matrix (Fin n) (Fin n) ℝ)

/-- `ledoit_wolf` (risk_models.py:438-463): result and `self.delta`.  With missing entries in
`self.S` the constant-correlation result is NaN; simplified to LinAlgError as in `fixFrame`. -/
noncomputable def ledoitWolf (E : Eigh) (K : Sklearn) (X : Frame ι κ) (freq : ℝ) (target : String) :
    Except PyErr (CovFrame κ × ℝ) :=
  if target = "constant_variance" then
    let r := K.ledoitWolf (numX X)
    (annualize E X.cols freq (Matrix.of fun i j => some (r.1 i j))).map (fun c => (c, r.2))
  else if target = "single_factor" then
    let r := singleFactor (numX X)
    (annualize E X.cols freq r.1).map (fun c => (c, r.2))
  else if target = "constant_correlation" then
    match allSome (shrinkS X) with
    | none => .error .linAlg
    | some S =>
      let r := constantCorrelation (numX X) S
      (annualize E X.cols freq r.1).map (fun c => (c, r.2))
  else .error .notImplemented

/-- `oracle_approximating` (risk_models.py:573-582). -/
noncomputable def oracleApproximating (E : Eigh) (K : Sklearn) (X : Frame ι κ) (freq : ℝ) :
    Except PyErr (CovFrame κ × ℝ) :=
  let r := K.oas (numX X)
  (annualize E X.cols freq (Matrix.of fun i j => some (r.1 i j))).map (fun c => (c, r.2))

/-- The keyword arguments that can be given to `risk_matrix`. -/
structure Kwargs where
  returnsData : Option Bool := none
  frequency : Option ℝ := none
  logReturns : Option Bool := none
  span : Option ℝ := none
  benchmark : Option ℝ := none
  fixMethod : Option String := none

/-- `CovarianceShrinkage(prices, **kwargs)` (risk_models.py:371): TypeError for other keywords. -/
noncomputable def newShrinkage (prices : Frame ι κ) (kw : Kwargs) : Except PyErr (Frame ι κ × ℝ) :=
  if kw.span.isSome ∨ kw.benchmark.isSome ∨ kw.fixMethod.isSome then .error .typeError
  else .ok (shrinkX (kw.returnsData.getD false) (kw.logReturns.getD false) prices,
    kw.frequency.getD 252)

/-- `risk_matrix` (risk_models.py:101-146) with the defaults of the estimators' signatures. -/
noncomputable def riskMatrix (E : Eigh) (K : Sklearn) (prices : Frame ι κ) (method : String)
    (kw : Kwargs) : Except PyErr (CovFrame κ) :=
  let rd := kw.returnsData.getD false
  let freq := kw.frequency.getD 252
  let log := kw.logReturns.getD false
  let fix := kw.fixMethod.getD "spectral"
  if method = "sample_cov" then sampleCovariance E prices rd freq log fix
  else if method = "semicovariance" ∨ method = "semivariance" then
    semicovariance E prices rd (kw.benchmark.getD 0.000079) freq log fix
  else if method = "exp_cov" then expCovariance E prices rd (kw.span.getD 180) freq log fix
  else if method = "ledoit_wolf" ∨ method = "ledoit_wolf_constant_variance" then do
    let x ← newShrinkage prices kw
    (ledoitWolf E K x.1 x.2 "constant_variance").map Prod.fst
  else if method = "ledoit_wolf_single_factor" then do
    let x ← newShrinkage prices kw
    (ledoitWolf E K x.1 x.2 "single_factor").map Prod.fst
  else if method = "ledoit_wolf_constant_correlation" then do
    let x ← newShrinkage prices kw
    (ledoitWolf E K x.1 x.2 "constant_correlation").map Prod.fst
  else if method = "oracle_approximating" then do
    let x ← newShrinkage prices kw
    (oracleApproximating E K x.1 x.2).map Prod.fst
  else .error .notImplemented

end Verif.Risk
