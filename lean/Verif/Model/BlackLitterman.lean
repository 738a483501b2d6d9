import Verif.Model.Perf
import Mathlib.LinearAlgebra.Matrix.NonsingularInverse

/-!
Model of `black_litterman.py`.  Numbers are real, arrays of known shape are `Matrix`, column vectors
`(k, 1)` are functions on `Fin k`.  `numpy.linalg.solve` and `numpy.linalg.lstsq` are oracles; what
is assumed of them is stated in `Spec/BlackLitterman.lean`.  Warnings are not modelled.
-/

noncomputable section

namespace Verif.BL
open Verif.Py Verif.Base Verif.Perf Matrix

variable {κ : Type} [DecidableEq κ] {n k : ℕ}

/-- `np.linalg.solve` for all shapes (`none`: `LinAlgError("Singular matrix")`) and
`np.linalg.lstsq(A, b, rcond=None)[0]` for equal numbers of rows. -/
structure LinAlg where
  solve : ∀ (m r : ℕ), Matrix (Fin m) (Fin m) ℝ → Matrix (Fin m) (Fin r) ℝ → Option (Matrix (Fin m) (Fin r) ℝ)
  lstsq : ∀ (m c r : ℕ), Matrix (Fin m) (Fin c) ℝ → Matrix (Fin m) (Fin r) ℝ → Matrix (Fin c) (Fin r) ℝ

/-- A 1-d array or one-column array as a one-column matrix. -/
def col (v : Fin n → ℝ) : Matrix (Fin n) (Fin 1) ℝ := fun i _ => v i

/-- The attributes fixed by the constructor (black_litterman.py:182-200). -/
structure Inputs (κ : Type) (n k : ℕ) where
  tickers : Fin n → κ
  cov : Matrix (Fin n) (Fin n) ℝ
  Q : Fin k → ℝ
  P : Matrix (Fin k) (Fin n) ℝ
  pi : Fin n → ℝ
  omega : Matrix (Fin k) (Fin k) ℝ
  tau : ℝ
  riskAversion : ℝ

/-- The attributes changed by the methods: `_tau_sigma_P`, `_A`, `posterior_rets`, `posterior_cov`
(black_litterman.py:202-206) and `weights` (base_optimizer.py:58). -/
structure State (n k : ℕ) where
  tauSigmaP : Option (Matrix (Fin n) (Fin k) ℝ) := none
  A : Option (Matrix (Fin k) (Fin k) ℝ) := none
  posteriorRets : Option (Fin n → ℝ) := none
  posteriorCov : Option (Matrix (Fin n) (Fin n) ℝ) := none
  weights : Option (Fin n → Flt ℝ) := none

/-! ### Constructor -/

/-- The loop of `_parse_views` (black_litterman.py:225-235): one row per view, in the order of the
mapping.  `views` lists the entries of `pd.Series(absolute_views)`; labels are assumed distinct, as
in a dict (with a duplicated label `views[ticker]` is a Series and the assignment fails).
`list(self.tickers).index` finds the first position. -/
def parseViews (tickers : List κ) : List (κ × ℝ) → Except PyErr (List ℝ × List (List ℝ))
  | [] => .ok ([], [])
  | (t, v) :: rest =>
    if t ∈ tickers then
      match parseViews tickers rest with
      | .ok (q, p) =>
        .ok (v :: q, ((List.replicate tickers.length (0 : ℝ)).set (tickers.idxOf t) 1) :: p)
      | .error e => .error e
    else .error .valueError

/-- How the views are passed (black_litterman.py:187-190).  `other`: an object of a wrong type. -/
inductive ViewsArg (κ : Type)
  | absolute (views : List (κ × ℝ))
  | absoluteOther
  | qp (Q : Option (List ℝ)) (P : Option (List (List ℝ)))

/-- `np.eye(n)` as rows. -/
def eye (n : ℕ) : List (List ℝ) := (List.range n).map (fun i => (List.replicate n (0 : ℝ)).set i 1)

/-- `_parse_views` (black_litterman.py:208-235) or `_set_Q_P` (black_litterman.py:237-254). -/
def setQP (tickers : List κ) : ViewsArg κ → Except PyErr (List ℝ × List (List ℝ))
  | .absolute views => parseViews tickers views
  | .absoluteOther => .error .typeError
  | .qp none _ => .error .typeError
  | .qp (some Q) (some P) => .ok (Q, P)
  | .qp (some Q) none => if Q.length = tickers.length then .ok (Q, eye tickers.length) else .error .typeError

/-- `market_caps`: a mapping from tickers, or unlabelled values. -/
inductive CapsArg (κ : Type)
  | mapping (d : List (κ × ℝ))
  | array (v : List ℝ)

/-- `market_implied_prior_returns` (black_litterman.py:19-52) for a DataFrame `cov_matrix` and
labelled caps.  `DataFrame.dot(Series)` raises ValueError ("matrices are not aligned") unless the
labels agree as sets, and then multiplies label by label.  `none`: the caps sum to zero, numpy
returns infinities or NaN. -/
def marketPrior (tickers : Fin n → κ) (caps : List (κ × ℝ)) (riskAversion : ℝ)
    (cov : Matrix (Fin n) (Fin n) ℝ) (rf : ℝ) : Except PyErr (Option (Fin n → ℝ)) :=
  if (∀ i, tickers i ∈ caps.map Prod.fst) ∧ ∀ t ∈ caps.map Prod.fst, ∃ i, tickers i = t then
    let total := (caps.map Prod.snd).sum
    if total = 0 then .ok none
    else .ok (some (fun i => riskAversion *
      ∑ j, cov i j * ((Dict.get? caps (tickers j)).getD 0 / total) + rf))
  else .error .valueError

/-- `pi` (black_litterman.py:256-279). -/
inductive PiArg (κ : Type)
  | none
  | array (v : List ℝ)
  | market (caps : Option (List (κ × ℝ))) (rf : ℝ)
  | equal
  | other

/-- `view_confidences`: a numpy array (not checked for length) or another sequence (checked). -/
inductive ConfArg
  | ndarray (c : List ℝ)
  | seq (c : List ℝ)

/-- `omega` (black_litterman.py:291-327). -/
inductive OmegaArg
  | array (rows : List (List ℝ))
  | idzorek (conf : Option ConfArg)
  | default
  | other

/-- `default_omega` (black_litterman.py:346-355). -/
def defaultOmega (cov : Matrix (Fin n) (Fin n) ℝ) (P : Matrix (Fin k) (Fin n) ℝ) (tau : ℝ) :
    Matrix (Fin k) (Fin k) ℝ := Matrix.diagonal (fun i => ((tau • P) * cov * Pᵀ) i i)

/-- One pass of the loop in `idzorek_method` (black_litterman.py:370-387). -/
def idzorekEntry (cov : Matrix (Fin n) (Fin n) ℝ) (p : Fin n → ℝ) (tau conf : ℝ) : Except PyErr ℝ :=
  if conf < 0 ∨ conf > 1 then .error .valueError
  else if conf = 0 then .ok 1000000
  else .ok (((tau * ((1 - conf) / conf)) • p) ⬝ᵥ (cov *ᵥ p))

/-- The loop of `idzorek_method` over the views (black_litterman.py:369-387); `view_confidences[i]`
raises IndexError when the array is too short, extra entries are ignored. -/
def idzorekLoop (cov : Matrix (Fin n) (Fin n) ℝ) (tau : ℝ) :
    List (Fin n → ℝ) → List ℝ → Except PyErr (List ℝ)
  | [], _ => .ok []
  | _ :: _, [] => .error .indexError
  | p :: ps, c :: cs => do
    let e ← idzorekEntry cov p tau c
    let es ← idzorekLoop cov tau ps cs
    pure (e :: es)

/-- `idzorek_method` (black_litterman.py:358-388); `pi`, `Q`, `risk_aversion` are not used by the
code except for the number of views. -/
def idzorek (conf : List ℝ) (cov : Matrix (Fin n) (Fin n) ℝ) (P : Matrix (Fin k) (Fin n) ℝ) (tau : ℝ) :
    Except PyErr (Matrix (Fin k) (Fin k) ℝ) := do
  let es ← idzorekLoop cov tau (List.ofFn P.row) conf
  pure (Matrix.diagonal (fun i => es.getD i 0))

/-- The shape assertion `a.shape == (r, c)` on rows. -/
def toMatrix? (r c : ℕ) (rows : List (List ℝ)) : Option (Matrix (Fin r) (Fin c) ℝ) :=
  if rows.length = r ∧ ∀ row ∈ rows, row.length = c then
    some (fun i j => (rows.getD i []).getD j 0)
  else none

/-- `a.reshape(-1, 1).shape == (r, 1)`. -/
def toVec? (r : ℕ) (v : List ℝ) : Option (Fin r → ℝ) :=
  if v.length = r then some (fun i => v.getD i 0) else none

/-- `_set_pi` (black_litterman.py:256-279); `none` inside: a non-finite market prior.  The market
prior reads `self._raw_cov_matrix`, taken to be a frame of the right shape. -/
def setPi (tickers : Fin n → κ) (cov : Matrix (Fin n) (Fin n) ℝ) (riskAversion : ℝ) :
    PiArg κ → Except PyErr (Option (List ℝ))
  | .none => .ok (some (List.replicate n 0))
  | .array v => .ok (some v)
  | .market none _ => .error .valueError
  | .market (some caps) rf => (marketPrior tickers caps riskAversion cov rf).map (·.map List.ofFn)
  | .equal => .ok (some (List.replicate n (1 / (n : ℝ))))
  | .other => .error .typeError

/-- `_set_omega` (black_litterman.py:291-330). -/
def setOmega (cov : Matrix (Fin n) (Fin n) ℝ) (P : Matrix (Fin k) (Fin n) ℝ) (tau : ℝ) :
    OmegaArg → Except PyErr (Matrix (Fin k) (Fin k) ℝ)
  | .array rows => match toMatrix? k k rows with | some m => .ok m | none => .error .assertion
  | .idzorek none => .error .valueError
  | .idzorek (some (.seq c)) => if c.length = k then idzorek c cov P tau else .error .valueError
  | .idzorek (some (.ndarray c)) => idzorek c cov P tau
  | .default => .ok (defaultOmega cov P tau)
  | .other => .error .typeError

/-- `__init__` (black_litterman.py:127-206) for a square frame `cov_matrix` with columns `tickers`,
with `_set_risk_aversion` (black_litterman.py:286-289), `_set_tau` (black_litterman.py:281-284) and
`_check_attribute_dimensions` (black_litterman.py:332-343) written out.
`none`: the object is built with a non-finite prior; nothing is modelled about it. -/
def construct (tickers : List κ) (cov : Matrix (Fin tickers.length) (Fin tickers.length) ℝ) (pi : PiArg κ)
    (views : ViewsArg κ) (omega : OmegaArg) (tau riskAversion : ℝ) :
    Except PyErr (Option (Σ k, Inputs κ tickers.length k)) := do
  let (Q, P) ← setQP tickers views
  if riskAversion ≤ 0 then throw .valueError
  let pi ← setPi tickers.get cov riskAversion pi
  if tau ≤ 0 ∨ tau > 1 then throw .valueError
  match pi with
  | none => pure none
  | some pi =>
    match toVec? tickers.length pi, toMatrix? Q.length tickers.length P with
    | some pi, some P => do
      let om ← setOmega cov P tau omega
      pure (some ⟨Q.length, tickers.get, cov, Q.get, P, pi, om, tau, riskAversion⟩)
    | _, _ => throw .assertion

/-! ### Methods -/

/-- `self._tau_sigma_P` after its lazy initialisation (black_litterman.py:399-400, 427-428). -/
def getTSP (x : Inputs κ n k) (s : State n k) : Matrix (Fin n) (Fin k) ℝ :=
  match s.tauSigmaP with | some t => t | none => (x.tau • x.cov) * x.Pᵀ

/-- `self._A` after its lazy initialisation (black_litterman.py:403-404, 429-430). -/
def getA (x : Inputs κ n k) (s : State n k) : Matrix (Fin k) (Fin k) ℝ :=
  match s.A with | some a => a | none => x.P * getTSP x s + x.omega

/-- `try: np.linalg.solve(A, b) except LinAlgError: np.linalg.lstsq(A, b)[0]`
(black_litterman.py:406-412, 433-439). -/
def solveOr (la : LinAlg) {m r : ℕ} (A : Matrix (Fin m) (Fin m) ℝ) (b : Matrix (Fin m) (Fin r) ℝ) :
    Matrix (Fin m) (Fin r) ℝ :=
  match la.solve m r A b with | some x => x | none => la.lstsq m m r A b

/-- The two lazy attributes are stored. -/
def fill (x : Inputs κ n k) (s : State n k) : State n k :=
  { s with tauSigmaP := some (getTSP x s), A := some (getA x s) }

/-- `bl_returns` (black_litterman.py:390-414). -/
def blReturns (la : LinAlg) (x : Inputs κ n k) (s : State n k) : State n k × (Fin n → ℝ) :=
  let sol := solveOr la (getA x s) (col (x.Q - x.P *ᵥ x.pi))
  (fill x s, fun i => x.pi i + (getTSP x s * sol) i 0)

/-- `bl_cov` (black_litterman.py:416-441). -/
def blCov (la : LinAlg) (x : Inputs κ n k) (s : State n k) : State n k × Matrix (Fin n) (Fin n) ℝ :=
  let sol := solveOr la (getA x s) (getTSP x s)ᵀ
  (fill x s, x.cov + (x.tau • x.cov - getTSP x s * sol))

/-- `weight_solution` of `bl_weights` (black_litterman.py:461-471).  On a singular matrix the code
calls `lstsq(self._A, b)` with the `k × k` matrix `self._A` and the `n` posterior returns; numpy
raises LinAlgError ("Incompatible dimensions") unless `k = n`. -/
def weightSolution (la : LinAlg) (x : Inputs κ n k) (A' : Matrix (Fin k) (Fin k) ℝ) (δ : ℝ)
    (post : Fin n → ℝ) : Except PyErr (Fin n → ℝ) :=
  match la.solve n 1 (δ • x.cov) (col post) with
  | some w => .ok (fun i => w i 0)
  | none =>
    if h : k = n then .ok (fun i => la.lstsq k k 1 A' (fun j _ => post (h ▸ j)) (h ▸ i) 0)
    else .error .linAlg

/-- `bl_weights` (black_litterman.py:443-474) and its alias `optimize` (black_litterman.py:476-480).
The result of `_make_output_weights` is the dict from tickers to these weights
(base_optimizer.py:56-68).  The division by the sum follows numpy: a zero sum gives infinities or NaN,
no exception. -/
def blWeights (la : LinAlg) (x : Inputs κ n k) (s : State n k) (ra : Option ℝ) :
    State n k × Except PyErr (Fin n → Flt ℝ) :=
  let δ := ra.getD x.riskAversion
  let r := blReturns la x s
  let s1 := { r.1 with posteriorRets := some r.2 }
  match weightSolution la x (getA x s) δ r.2 with
  | .error e => (s1, .error e)
  | .ok raw =>
    let w := fun i => fdiv (raw i) (.fin (∑ j, raw j))
    ({ s1 with weights := some w }, .ok w)

def finVal : Flt ℝ → Option ℝ
  | .fin x => some x
  | _ => none

/-- The finite weights, as passed on to the performance function. -/
def finite? (w : Fin n → Flt ℝ) : Option (List ℝ) := (List.ofFn w).mapM finVal

/-- `self.posterior_cov` after its lazy initialisation (black_litterman.py:498-499). -/
def ensureCov (la : LinAlg) (x : Inputs κ n k) (s : State n k) : State n k × Matrix (Fin n) (Fin n) ℝ :=
  match s.posteriorCov with
  | some c => (s, c)
  | none => ({ (blCov la x s).1 with posteriorCov := some (blCov la x s).2 }, (blCov la x s).2)

/-- `portfolio_performance` (black_litterman.py:482-506): `self.weights` is an array (or `None`), the
returns a Series (or `None`), the covariance a labelled frame.  `none`: the stored weights are not
finite, the result is not modelled. -/
def performance (la : LinAlg) (natKey : ℕ → κ) (x : Inputs κ n k) (s : State n k) (rf : ℝ) :
    State n k × Option (Except PyErr (Option (Flt ℝ) × Flt ℝ × Option (Flt ℝ))) :=
  let r := ensureCov la x s
  let er : ReturnsArg κ := match r.1.posteriorRets with
    | none => .none
    | some m => .series (List.ofFn (fun i => (x.tickers i, m i)))
  let cov : CovArg κ := .frame (List.ofFn x.tickers) (List.ofFn (fun i => List.ofFn (r.2.row i)))
  let w : Option (WeightsArg κ) := match r.1.weights with
    | none => some .none
    | some w => (finite? w).map .array
  (r.1, w.map (fun w => Perf.performance natKey w er cov rf))

/-- `set_weights` (base_optimizer.py:70-77) stores an array built from a dict; here the array. -/
def setWeights (s : State n k) (w : Fin n → ℝ) : State n k :=
  { s with weights := some (fun i => .fin (w i)) }

/-- `market_implied_risk_aversion` (black_litterman.py:55-83) on complete prices:
`pct_change().dropna()`, mean, variance with one degree of freedom; `none` where numpy returns NaN or
infinity (fewer than two returns, a zero price before the last, or a zero variance). -/
def pctChange : List ℝ → List ℝ
  | a :: b :: l => (b / a - 1) :: pctChange (b :: l)
  | _ => []

def mean (l : List ℝ) : ℝ := l.sum / l.length

def sampleVar (l : List ℝ) : ℝ := (l.map (fun x => (x - mean l) ^ 2)).sum / (l.length - 1)

def riskAversionImplied (prices : List ℝ) (freq rf : ℝ) : Option ℝ :=
  let r := pctChange prices
  if r.length < 2 ∨ 0 ∈ prices.dropLast ∨ sampleVar r * freq = 0 then none
  else some ((mean r * freq - rf) / (sampleVar r * freq))

/-! ### Executions -/

/-- The public methods, in any order. -/
inductive Call (n : ℕ)
  | returns
  | cov
  | weights (ra : Option ℝ)
  | performance (rf : ℝ)
  | setWeights (w : Fin n → ℝ)

/-- The state after one call. -/
def step (la : LinAlg) (natKey : ℕ → κ) (x : Inputs κ n k) (s : State n k) : Call n → State n k
  | .returns => (blReturns la x s).1
  | .cov => (blCov la x s).1
  | .weights ra => (blWeights la x s ra).1
  | .performance rf => (performance la natKey x s rf).1
  | .setWeights w => setWeights s w

/-- The state after a sequence of calls on a fresh object. -/
def run (la : LinAlg) (natKey : ℕ → κ) (x : Inputs κ n k) (cs : List (Call n)) : State n k :=
  cs.foldl (step la natKey x) {}

end Verif.BL
