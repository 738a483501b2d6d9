import Verif.Model.Convex

/-!
Model of `EfficientFrontier` (efficient_frontier.py) and of its subclasses `EfficientCVaR`,
`EfficientCDaR` and `EfficientSemivariance`, on top of `Verif.Model.Convex`.

Arguments are numbers (NaN and non-numeric arguments are left out, except that `efficient_return`
distinguishes floats from integers).  Input validation of the constructors and the printing of
`portfolio_performance` are not modelled here.
-/

noncomputable section

namespace Verif.Convex
open Verif.Py Verif.Base Matrix

/-- Which class the object belongs to. -/
inductive Kind
  | ef | cvar | cdar | semi
  deriving DecidableEq

/-- The data an object is built from.  `mu = none` is `expected_returns=None`; `symOk` is the outcome of
cvxpy's symmetry test on the covariance; `pinv` is `np.linalg.pinv(cov)`; `R` are the rows of `returns`.
The subclasses use library variables 0 (`_alpha`), 1 (`_u`) and 2 (`_z`). -/
structure Data (n : ℕ) where
  kind : Kind
  mu : Option (Fin n → ℝ)
  cov : Matrix (Fin n) (Fin n) ℝ
  symOk : Bool
  pinv : Matrix (Fin n) (Fin n) ℝ
  T : ℕ
  R : Fin T → Fin n → ℝ
  beta : ℝ
  freq : ℝ
  bench : ℝ

variable {n : ℕ} (U : Uni n) (S : Solver n) (D : Data n)

/-! ### Shared pieces -/

/-- `portfolio_variance(self._w, self.cov_matrix)` / `cp.quad_form(self._w, …)` as an expression
(objective_functions.py:59-71): cvxpy raises ValueError if the matrix is not symmetric. -/
def varianceExpr : M n (Asg n → ℝ) :=
  if D.symOk then pure (fun s => Obj.variance s.w D.cov) else raise .valueError

/-- `portfolio_return(self._w, self.expected_returns, negative)` as an expression
(objective_functions.py:74-89). -/
def returnExpr (negative : Bool) : M n (Asg n → ℝ) :=
  match D.mu with
  | none => raise .typeError
  | some mu => pure (fun s => Obj.ret s.w mu negative)

/-- A real scalar expression without parameters. -/
def scalar (f : Asg n → ℝ) : Expr Par (Env n) 1 := real (fun s _ => f s)

/-- `_validate_market_neutral` (efficient_frontier.py:456-460). -/
def validateNeutral (mn : Bool) : M n Unit := do
  let o ← get
  if o.neutral ≠ some mn then raise .instantiation

open Classical in
/-- The bounds check of a market-neutral request (efficient_frontier.py:169-179). -/
def amendBounds : M n Unit := do
  let o ← get
  if ¬ ∃ i, o.lb i < 0 then
    mapBounds (fun _ => -1) (fun _ => 1)
    modify (fun o => { o with cons := o.cons.drop 2 })
  else pure ()

/-- The constraint on the weight sum (efficient_frontier.py:168-183). -/
def sumConstraint (mn : Bool) : M n Unit :=
  if mn then do
    amendBounds
    addLib (sumCon 0)
  else addLib (sumCon 1)

/-- `_make_weight_sum_constraint` (efficient_frontier.py:163-184). -/
def makeWeightSum (mn : Bool) : M n Unit := do
  sumConstraint mn
  modify (fun o => { o with neutral := some mn })

/-- The pattern shared by the target methods: update the parameter if it exists, otherwise build the
problem; then solve. -/
def withParameter (name : String) (mn : Bool) (v : ℝ) (build : M n Unit) : M n (Fin n → ℝ) := do
  if ← isDefined name then
    validateNeutral mn
    updatePar name v
  else
    build
  solve S

/-! ### `EfficientFrontier` -/

/-- `min_volatility` (efficient_frontier.py:186-200). -/
def minVolatility : M n (Fin n → ℝ) := do
  let v ← varianceExpr D
  setObjective [] (fun e => (v e.asg : EReal))
  addAll
  addLib (sumCon 1)
  solve S

/-- The number of the next solver call. -/
def callNo : M n ℕ := fun o h => (.ok h.log.length, o, h)

/-- `-self._opt.value` after call `k` (efficient_frontier.py:221). -/
def negValue (k : ℕ) : M n ℝ := fun o h =>
  match h.log[k]? with
  | none => (.error .attribute, o, h)
  | some P =>
    match S k P with
    | .optimal _ v => (.ok (-v), o, h)
    | _ => (.error .attribute, o, h)

/-- `_max_return` (efficient_frontier.py:202-223), returning `-self._opt.value`. -/
def maxReturn : M n ℝ := do
  match D.mu with
  | none => raise .valueError
  | some _ =>
    let r ← returnExpr D true
    setObjective [] (fun e => (r e.asg : EReal))
    addLib (sumCon 1)
    let k ← callNo
    let _ ← solve S
    negValue S k

/-- `a = self.deepcopy(); a._max_return()` (efficient_frontier.py:397-398): only the shared state is
affected. -/
def maxReturnOfCopy : M n ℝ := fun o h =>
  let r := maxReturn S D (deepcopy o) h
  (r.1, o, r.2.2)

/-- `constr.args[0] * k` in `max_sharpe`. -/
def scaleBy (k : ℕ) {m : ℕ} (a : Expr Par (Env n) m) : Expr Par (Env n) m :=
  ⟨false, a.params, fun e i => a.val e i * (e.asg.lib k 0 : EReal)⟩

/-- The rebuilt body of one constraint (efficient_frontier.py:268-281). -/
def rebuildBody (k : ℕ) : ConBody Par (Env n) → Except PyErr (ConBody Par (Env n))
  | .ineq m a b =>
    if a.isConst then .ok (.ineq m (scaleBy k a) b) else .ok (.ineq m a (scaleBy k b))
  | .eq m a b => .ok (.eq m a (scaleBy k b))
  | _ => .error .typeError

/-- The loop over the constraints (efficient_frontier.py:265-281). -/
def rebuildAll (k : ℕ) : List (Con n) → M n (List (Con n))
  | [] => pure []
  | c :: cs => do
    let b ← lift (rebuildBody k c.body)
    let i ← freshId
    let rest ← rebuildAll k cs
    pure (⟨i, b, c.dom⟩ :: rest)

/-- `self.weights = (self._w.value / k.value).round(16) + 0.0` (efficient_frontier.py:292). -/
def rescale (k : ℕ) : M n (Fin n → ℝ) := fun o h =>
  match h.vals with
  | none => (.error .attribute, o, h)
  | some s =>
    (.ok (round16 (fun i => s.w i / s.lib k 0)),
      { o with weights := some (round16 (fun i => s.w i / s.lib k 0)) }, h)

/-- `max_sharpe` (efficient_frontier.py:225-293).  `max([])` raises ValueError.  The final division is
by the solver's value of `k`; a zero there (infinite or NaN weights in numpy) reads as `x / 0 = 0`. -/
def maxSharpe (rf : ℝ) : M n (Fin n → ℝ) := do
  match D.mu with
  | none => raise .typeError
  | some mu =>
    if ∀ i, mu i ≤ rf then raise .valueError
    else
      modify (fun o => { o with rf := some rf })
      let v ← varianceExpr D
      setObjective [] (fun e => (v e.asg : EReal))
      let k ← freshVar
      addAll
      let o ← get
      let new ← rebuildAll k o.cons
      let i₁ ← freshId
      let i₂ ← freshId
      let i₃ ← freshId
      let c₁ : Con n := ⟨i₁, .eq 1 (scalar (fun s => ∑ i, (mu i - rf) * s.w i)) (const (fun _ => 1)),
        fun _ => True⟩
      let c₂ : Con n := ⟨i₂, .eq 1 sumExpr (scalar (fun s => s.lib k 0)), fun _ => True⟩
      let c₃ : Con n := ⟨i₃, .ineq 1 (const (fun _ => 0)) (scalar (fun s => s.lib k 0)), fun _ => True⟩
      modify (fun o => { o with cons := [c₁, c₂, c₃] ++ new })
      let _ ← solve S
      rescale k

/-- `max_quadratic_utility` (efficient_frontier.py:295-330, objective_functions.py:140-165). -/
def maxUtility (riskAversion : ℝ) (mn : Bool) : M n (Fin n → ℝ) := do
  if riskAversion ≤ 0 then raise .valueError
  withParameter S "risk_aversion" mn riskAversion do
    let r ← returnExpr D false
    let v ← varianceExpr D
    let p ← newPar "risk_aversion" riskAversion true
    setObjective [p] (fun e => ((-(r e.asg - 0.5 * e.get p.ref * v e.asg) : ℝ) : EReal))
    addAll
    makeWeightSum mn

/-- `np.sqrt(1 / np.sum(np.linalg.pinv(cov)))` (efficient_frontier.py:351). -/
def globalMinVol : Flt ℝ :=
  match Perf.fdiv 1 (.fin (∑ i, ∑ j, D.pinv i j)) with
  | .fin x => Perf.fsqrt x
  | .posInf => .posInf
  | _ => .nan

/-- `x < f` for a float `f`: false if `f` is NaN. -/
def numLt (x : ℝ) : Flt ℝ → Prop
  | .fin y => x < y
  | .posInf => True
  | .negInf => False
  | .nan => False

open Classical in
/-- `efficient_risk` (efficient_frontier.py:332-378). -/
def efficientRisk (target : ℝ) (mn : Bool) : M n (Fin n → ℝ) := do
  if target < 0 then raise .valueError
  if numLt target (globalMinVol D) then raise .valueError
  withParameter S "target_variance" mn (target ^ 2) do
    let r ← returnExpr D true
    setObjective [] (fun e => (r e.asg : EReal))
    let v ← varianceExpr D
    addAll
    let p ← newPar "target_variance" (target ^ 2) true
    addLib (.ineq 1 (scalar v) (ofPar p))
    makeWeightSum mn

/-- The caching and the check of the maximum return (efficient_frontier.py:396-402): the attribute is
recomputed when it is `None` or zero. -/
def checkMaxReturn (target : ℝ) : M n Unit := do
  let o ← get
  let m ← (match o.maxRet with
    | some m => if m = 0 then maxReturnOfCopy S D else pure m
    | none => maxReturnOfCopy S D)
  modify (fun o => { o with maxRet := some m })
  if m < target then raise .valueError

/-- `efficient_return` (efficient_frontier.py:380-422). -/
def efficientReturn (isFloat : Bool) (target : ℝ) (mn : Bool) : M n (Fin n → ℝ) := do
  if !isFloat then raise .valueError
  checkMaxReturn S D target
  withParameter S "target_return" mn target do
    let v ← varianceExpr D
    setObjective [] (fun e => (v e.asg : EReal))
    let r ← returnExpr D false
    addAll
    let p ← newPar "target_return" target false
    addLib (.ineq 1 (ofPar p) (scalar r))
    makeWeightSum mn

/-! ### `EfficientCVaR` -/

/-- `1.0 / (len(self.returns) * (1 - self._beta))`. -/
def tailCoef : M n ℝ :=
  if (D.T : ℝ) * (1 - D.beta) = 0 then raise .zeroDivision else pure (1 / (D.T * (1 - D.beta)))

/-- `self._alpha + 1.0 / (…) * cp.sum(self._u)` (efficient_cvar.py:126-128). -/
def cvarExpr : M n (Asg n → ℝ) := do
  let c ← tailCoef D
  pure (fun s => s.lib 0 0 + c * ∑ t : Fin D.T, s.lib 1 t)

/-- The two tail constraints (efficient_cvar.py:133-136). -/
def cvarCons : M n Unit := do
  addLib (.ineq D.T (const (fun _ => 0)) (real (fun s t => s.lib 1 t)))
  addLib (.ineq D.T (const (fun _ => 0)) (real (fun s t => D.R t ⬝ᵥ s.w + s.lib 0 0 + s.lib 1 t)))

/-- `min_cvar` (efficient_cvar.py:116-139). -/
def minCvar (mn : Bool) : M n (Fin n → ℝ) := do
  let v ← cvarExpr D
  setObjective [] (fun e => (v e.asg : EReal))
  addAll
  cvarCons D
  makeWeightSum mn
  solve S

/-- `self.expected_returns.T @ self._w`. -/
def muTimesW : M n (Asg n → ℝ) :=
  match D.mu with
  | none => raise .attribute
  | some mu => pure (fun s => mu ⬝ᵥ s.w)

/-- `EfficientCVaR.efficient_return` (efficient_cvar.py:141-177). -/
def cvarReturn (target : ℝ) (mn : Bool) : M n (Fin n → ℝ) :=
  withParameter S "target_return" mn target do
    let v ← cvarExpr D
    setObjective [] (fun e => (v e.asg : EReal))
    addAll
    cvarCons D
    let r ← muTimesW D
    let p ← newPar "target_return" target false
    addLib (.ineq 1 (ofPar p) (scalar r))
    makeWeightSum mn

/-- `EfficientCVaR.efficient_risk` (efficient_cvar.py:179-218). -/
def cvarRisk (target : ℝ) (mn : Bool) : M n (Fin n → ℝ) :=
  withParameter S "target_cvar" mn target do
    let r ← returnExpr D true
    setObjective [] (fun e => (r e.asg : EReal))
    addAll
    let v ← cvarExpr D
    let p ← newPar "target_cvar" target true
    addLib (.ineq 1 (scalar v) (ofPar p))
    cvarCons D
    makeWeightSum mn

/-! ### `EfficientCDaR` -/

/-- `self._alpha + 1.0 / (…) * cp.sum(self._z)` (efficient_cdar.py:126-128). -/
def cdarExpr : M n (Asg n → ℝ) := do
  let c ← tailCoef D
  pure (fun s => s.lib 0 0 + c * ∑ t : Fin D.T, s.lib 2 t)

/-- `_add_cdar_constraints` (efficient_cdar.py:204-211).  Component `t + 1` of `_u` belongs to row `t`. -/
def cdarCons : M n Unit := do
  addLib (.ineq D.T (real (fun s t => s.lib 1 (t + 1) - s.lib 0 0)) (real (fun s t => s.lib 2 t)))
  addLib (.ineq D.T (real (fun s t => s.lib 1 t - D.R t ⬝ᵥ s.w)) (real (fun s t => s.lib 1 (t + 1))))
  addLib (.eq 1 (real (fun s _ => s.lib 1 0)) (const (fun _ => 0)))
  addLib (.ineq D.T (const (fun _ => 0)) (real (fun s t => s.lib 2 t)))
  addLib (.ineq D.T (const (fun _ => 0)) (real (fun s t => s.lib 1 (t + 1))))

/-- `min_cdar` (efficient_cdar.py:116-135) without the final solve. -/
def buildCdar (mn : Bool) : M n Unit := do
  let v ← cdarExpr D
  setObjective [] (fun e => (v e.asg : EReal))
  addAll
  cdarCons D
  makeWeightSum mn

/-- `min_cdar` (efficient_cdar.py:116-135). -/
def minCdar (mn : Bool) : M n (Fin n → ℝ) := do
  buildCdar D mn
  solve S

/-- `EfficientCDaR.efficient_return` (efficient_cdar.py:137-163). -/
def cdarReturn (target : ℝ) (mn : Bool) : M n (Fin n → ℝ) :=
  withParameter S "target_return" mn target do
    let r ← muTimesW D
    let p ← newPar "target_return" target true
    addLib (.ineq 1 (ofPar p) (scalar r))
    buildCdar D mn

/-- `EfficientCDaR.efficient_risk` (efficient_cdar.py:165-202). -/
def cdarRisk (target : ℝ) (mn : Bool) : M n (Fin n → ℝ) :=
  withParameter S "target_cdar" mn target do
    let r ← returnExpr D true
    setObjective [] (fun e => (r e.asg : EReal))
    addAll
    let v ← cdarExpr D
    let p ← newPar "target_cdar" target true
    addLib (.ineq 1 (scalar v) (ofPar p))
    cdarCons D
    makeWeightSum mn

/-! ### `EfficientSemivariance` -/

/-- `B @ w - p + n == 0` with `B = (returns - benchmark) / sqrt(T)` and non-negative variables `p`, `n`
(efficient_semivariance.py:119-127). -/
def semiCon (p q : ℕ) : M n Unit :=
  addLib (.eq D.T
    (real (fun s t => (∑ i, (D.R t i - D.bench) / Real.sqrt D.T * s.w i) - s.lib p t + s.lib q t))
    (const (fun _ => 0)))
    (fun e => ∀ t : Fin D.T, 0 ≤ e.asg.lib p t ∧ 0 ≤ e.asg.lib q t)

/-- `cp.sum(cp.square(n))`. -/
def sumSquares (q : ℕ) (s : Asg n) : ℝ := ∑ t : Fin D.T, s.lib q t ^ 2

/-- `min_semivariance` (efficient_semivariance.py:109-129). -/
def minSemi (mn : Bool) : M n (Fin n → ℝ) := do
  let p ← freshVar
  let q ← freshVar
  setObjective [] (fun e => (sumSquares D q e.asg : EReal))
  addAll
  semiCon D p q
  makeWeightSum mn
  solve S

/-- `EfficientSemivariance.max_quadratic_utility` (efficient_semivariance.py:131-167).  Division by a
zero `frequency` (a numpy warning or an error) is left out. -/
def semiUtility (riskAversion : ℝ) (mn : Bool) : M n (Fin n → ℝ) := do
  if riskAversion ≤ 0 then raise .valueError
  withParameter S "risk_aversion" mn riskAversion do
    let p ← freshVar
    let q ← freshVar
    let r ← returnExpr D true
    let a ← newPar "risk_aversion" riskAversion true
    setObjective [a] (fun e =>
      ((r e.asg / D.freq + 0.5 * e.get a.ref * sumSquares D q e.asg : ℝ) : EReal))
    addAll
    semiCon D p q
    makeWeightSum mn

/-- `EfficientSemivariance.efficient_risk` (efficient_semivariance.py:169-206). -/
def semiRisk (target : ℝ) (mn : Bool) : M n (Fin n → ℝ) :=
  withParameter S "target_semivariance" mn (target ^ 2) do
    let r ← returnExpr D true
    setObjective [] (fun e => (r e.asg : EReal))
    addAll
    let p ← freshVar
    let q ← freshVar
    let a ← newPar "target_semivariance" (target ^ 2) true
    addLib (.ineq 1 (scalar (fun s => D.freq * sumSquares D q s)) (ofPar a))
    semiCon D p q
    makeWeightSum mn

open Classical in
/-- `EfficientSemivariance.efficient_return` (efficient_semivariance.py:208-247).  `np.abs(None)` raises
TypeError, the maximum of an empty array ValueError. -/
def semiReturn (isFloat : Bool) (target : ℝ) (mn : Bool) : M n (Fin n → ℝ) := do
  if !isFloat ∨ target < 0 then raise .valueError
  match D.mu with
  | none => raise .typeError
  | some mu =>
    if ∀ i, |mu i| < target then raise .valueError
    withParameter S "target_return" mn target do
      let p ← freshVar
      let q ← freshVar
      setObjective [] (fun e => (sumSquares D q e.asg : EReal))
      addAll
      let a ← newPar "target_return" target false
      addLib (.ineq 1 (ofPar a) (scalar (fun s => s.w ⬝ᵥ mu)))
      semiCon D p q
      makeWeightSum mn

end Verif.Convex
