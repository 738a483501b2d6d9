import Verif.Model.Perf
import Verif.Model.Objectives
import Mathlib.Data.EReal.Operations

/-!
Model of `BaseConvexOptimizer` (base_optimizer.py:125-512): the mutable optimizer object, the cvxpy
objects it holds, and the shared state behind them.

A cvxpy expression is represented by its value as a function of all variables and parameters, the list
of its parameter leaves, and whether it is a `Constant`.  Values are extended reals, so that infinite
bounds and extended-valued convex functions are covered.  cvxpy's identifiers are kept: they decide
what `_solve_cvxpy_opt_problem` accepts.  The solver is an arbitrary function of the call number and of
the problem it is given.

Not modelled: shapes other than matching ones, `verbose`, `solver`, `solver_options`, an objective that
is a plain Python number, attributes (`nonneg=True` …) of variables created by the user.
-/

noncomputable section

namespace Verif.Convex
open Verif.Py Verif.Base

/-! ### cvxpy objects -/

/-- Values of all variables: the weights `_w`, variables created by the user, and variables created by
the library (number, component). -/
structure Asg (n : ℕ) where
  w : Fin n → ℝ
  usr : ℕ → ℝ
  lib : ℕ → ℕ → ℝ

/-- What an expression of the library may depend on: variables, the user's and the library's
parameters. -/
structure Env (n : ℕ) where
  asg : Asg n
  upar : ℕ → ℝ
  lpar : ℕ → ℝ

/-- What an expression built by the user may depend on. -/
structure UEnv (n : ℕ) where
  w : Fin n → ℝ
  usr : ℕ → ℝ
  par : ℕ → ℝ

def Env.user {n : ℕ} (e : Env n) : UEnv n := ⟨e.asg.w, e.asg.usr, e.upar⟩

/-- Identity of an object: created by the user or by the library. -/
inductive Ref
  | usr (i : ℕ)
  | lib (i : ℕ)
  deriving DecidableEq

/-- A `cp.Parameter`. -/
structure Par where
  name : String
  nonneg : Bool
  ref : Ref

/-- A cvxpy expression with `m` components, over parameters `π` and environments `ε`. -/
structure Expr (π ε : Type) (m : ℕ) where
  isConst : Bool
  params : List π
  val : ε → Fin m → EReal

/-- What a constraint function may return: an `Inequality` `args[0] <= args[1]`, an `Equality`, another
cvxpy constraint (cones …), a Boolean, or something else. -/
inductive ConBody (π ε : Type)
  | ineq (m : ℕ) (a b : Expr π ε m)
  | eq (m : ℕ) (a b : Expr π ε m)
  | other (params : List π) (sat : ε → Prop)
  | bool (b : Bool)
  | junk

/-- A scalar or vector objective. -/
structure ObjBody (π ε : Type) where
  scalar : Bool
  params : List π
  val : ε → EReal

def Expr.map {π ε π' ε' : Type} {m : ℕ} (f : π → π') (g : ε' → ε) (a : Expr π ε m) : Expr π' ε' m :=
  ⟨a.isConst, a.params.map f, fun e => a.val (g e)⟩

def ConBody.map {π ε π' ε' : Type} (f : π → π') (g : ε' → ε) : ConBody π ε → ConBody π' ε'
  | .ineq m a b => .ineq m (a.map f g) (b.map f g)
  | .eq m a b => .eq m (a.map f g) (b.map f g)
  | .other ps s => .other (ps.map f) (fun e => s (g e))
  | .bool b => .bool b
  | .junk => .junk

def ObjBody.map {π ε π' ε' : Type} (f : π → π') (g : ε' → ε) (o : ObjBody π ε) : ObjBody π' ε' :=
  ⟨o.scalar, o.params.map f, fun e => o.val (g e)⟩

/-- The cvxpy objects a user program has at hand: parameters (name, `nonneg`), objectives and
constraints.  User expressions cannot mention variables or parameters the library creates. -/
structure Uni (n : ℕ) where
  par : ℕ → String × Bool
  obj : ℕ → ObjBody ℕ (UEnv n)
  con : ℕ → ConBody ℕ (UEnv n)

def Uni.toPar {n : ℕ} (U : Uni n) (i : ℕ) : Par := ⟨(U.par i).1, (U.par i).2, .usr i⟩

/-- A constraint object.  `dom` holds the attributes of library variables that occur in it
(`cp.Variable(nonneg=True)`); cvxpy adds these to the problem by itself. -/
structure Con (n : ℕ) where
  id : Ref
  body : ConBody Par (Env n)
  dom : Env n → Prop

/-- An objective expression object. -/
structure Obj (n : ℕ) where
  id : Ref
  body : ObjBody Par (Env n)

def Uni.mkObj {n : ℕ} (U : Uni n) (i : ℕ) : Obj n := ⟨.usr i, (U.obj i).map U.toPar Env.user⟩

def Uni.mkCon {n : ℕ} (U : Uni n) (i : ℕ) : Con n :=
  ⟨.usr i, (U.con i).map U.toPar Env.user, fun _ => True⟩

/-- Meaning of a constraint. -/
def ConBody.sat {π ε : Type} : ConBody π ε → ε → Prop
  | .ineq _ a b, e => ∀ i, a.val e i ≤ b.val e i
  | .eq _ a b, e => ∀ i, a.val e i = b.val e i
  | .other _ s, e => s e
  | .bool b, _ => b = true
  | .junk, _ => False

def Con.sat {n : ℕ} (c : Con n) (e : Env n) : Prop := c.body.sat e ∧ c.dom e

/-- The parameter leaves of `constraint.args`; Booleans and other objects have no `args`. -/
def ConBody.leaves {π ε : Type} : ConBody π ε → Except PyErr (List π)
  | .ineq _ a b => .ok (a.params ++ b.params)
  | .eq _ a b => .ok (a.params ++ b.params)
  | .other ps _ => .ok ps
  | .bool _ => .error .attribute
  | .junk => .error .attribute

/-! ### Problems and the solver -/

/-- An optimisation problem, with all parameters at their values: minimise `obj` over `feas`. -/
@[ext] structure Prob (n : ℕ) where
  obj : Asg n → EReal
  feas : Asg n → Prop

/-- What `Problem.solve()` does: status optimal or optimal_inaccurate, with the variable values and
`Problem.value`; another status; or an exception. -/
inductive Answer (n : ℕ)
  | optimal (s : Asg n) (value : ℝ)
  | status (s : Option (Asg n))
  | raised (e : PyErr)

/-- A solver: its answer may depend on the number of the call and on the problem. -/
abbrev Solver (n : ℕ) := ℕ → Prob n → Answer n

/-! ### State -/

/-- A `cp.Problem` with `_initial_objective` and `_initial_constraint_ids`, which are set together with
it (base_optimizer.py:291-293).  The id set is `none` if reading the ids raised. -/
structure Opt (n : ℕ) where
  obj : Obj n
  cons : List (Con n)
  initObj : Ref
  initCons : Option (List Ref)

/-- Instance variables of a `BaseConvexOptimizer` / `EfficientFrontier` (base_optimizer.py:176-187,
efficient_frontier.py:84-88). -/
structure OState (n : ℕ) where
  lb : Fin n → EReal
  ub : Fin n → EReal
  objective : Option (Obj n)
  added : List (Obj n)
  cons : List (Con n)
  opt : Option (Opt n)
  weights : Option (Fin n → ℝ)
  rf : Option ℝ
  maxRet : Option ℝ
  neutral : Option Bool

/-- State shared by all objects: identifier counters, parameter values, the values of the variables
after the last solve, and (ghost) the problems given to the solver so far. -/
structure Heap (n : ℕ) where
  nextId : ℕ
  nextPar : ℕ
  nextVar : ℕ
  lpar : ℕ → ℝ
  upar : ℕ → ℝ
  vals : Option (Asg n)
  log : List (Prob n)

/-- A method body: on an exception the state changes made so far persist. -/
def M (n : ℕ) (α : Type) := OState n → Heap n → Except PyErr α × OState n × Heap n

instance {n : ℕ} : Monad (M n) where
  pure a := fun o h => (.ok a, o, h)
  bind x f := fun o h =>
    match x o h with
    | (.error e, o', h') => (.error e, o', h')
    | (.ok a, o', h') => f a o' h'

def raise {n : ℕ} {α : Type} (e : PyErr) : M n α := fun o h => (.error e, o, h)

/-- A pure computation that may raise. -/
def lift {n : ℕ} {α : Type} (r : Except PyErr α) : M n α := fun o h => (r, o, h)

def get {n : ℕ} : M n (OState n) := fun o h => (.ok o, o, h)

def modify {n : ℕ} (f : OState n → OState n) : M n Unit := fun o h => (.ok (), f o, h)

/-- A new identifier. -/
def freshId {n : ℕ} : M n Ref := fun o h => (.ok (.lib h.nextId), o, { h with nextId := h.nextId + 1 })

/-- `cp.Variable(…)`: a new library variable. -/
def freshVar {n : ℕ} : M n ℕ := fun o h => (.ok h.nextVar, o, { h with nextVar := h.nextVar + 1 })

/-- `cp.Parameter(name=…, value=…, nonneg=…)`: raises ValueError for a negative value of a `nonneg`
parameter. -/
def newPar {n : ℕ} (name : String) (v : ℝ) (nonneg : Bool) : M n Par := fun o h =>
  if nonneg ∧ v < 0 then (.error .valueError, o, h)
  else (.ok ⟨name, nonneg, .lib h.nextPar⟩, o,
    { h with nextPar := h.nextPar + 1, lpar := Function.update h.lpar h.nextPar v })

/-! ### Expressions -/

section exprs
variable {n : ℕ}

def Env.get (e : Env n) : Ref → ℝ
  | .usr i => e.upar i
  | .lib i => e.lpar i

/-- A numpy constant. -/
def const {m : ℕ} (c : Fin m → EReal) : Expr Par (Env n) m := ⟨true, [], fun _ => c⟩

/-- A parameter as an expression. -/
def ofPar (p : Par) : Expr Par (Env n) 1 := ⟨false, [p], fun e _ => (e.get p.ref : EReal)⟩

/-- An expression without parameters, with real values. -/
def real {m : ℕ} (f : Asg n → Fin m → ℝ) : Expr Par (Env n) m := ⟨false, [], fun e i => (f e.asg i : EReal)⟩

/-- The variable `_w`. -/
def wExpr : Expr Par (Env n) n := real (fun s => s.w)

/-- `cp.sum(w)`. -/
def sumExpr : Expr Par (Env n) 1 := real (fun s _ => ∑ i, s.w i)

end exprs

section methods
variable {n : ℕ} (U : Uni n) (S : Solver n)

/-- `self._objective = …`: a new expression object. -/
def setObjective (params : List Par) (val : Env n → EReal) : M n Unit := do
  let i ← freshId
  modify (fun o => { o with objective := some ⟨i, true, params, val⟩ })

/-- `self._objective += obj`: a new `AddExpression`. -/
def addTo (a b : Obj n) (i : Ref) : Obj n :=
  ⟨i, a.body.scalar && b.body.scalar, a.body.params ++ b.body.params,
    fun e => a.body.val e + b.body.val e⟩

/-- The loop `for obj in …: self._objective += obj` over a list. -/
def addEach : List (Obj n) → M n Unit
  | [] => pure ()
  | b :: rest => do
    let o ← get
    match o.objective with
    | none => raise .typeError
    | some a =>
      let i ← freshId
      modify (fun o => { o with objective := some (addTo a b i) })
      addEach rest

/-- `for obj in self._additional_objectives: self._objective += obj`. -/
def addAll : M n Unit := do
  let o ← get
  addEach o.added

/-- `add_constraint` (base_optimizer.py:343-366) with a callable that builds a new constraint from the
given parts. -/
def addLib (body : ConBody Par (Env n)) (dom : Env n → Prop := fun _ => True) : M n Unit := do
  let o ← get
  if o.opt.isSome then raise .instantiation
  let i ← freshId
  modify (fun o => { o with cons := o.cons ++ [⟨i, body, dom⟩] })

/-- `add_constraint` (base_optimizer.py:343-366) with the user's argument: whether it is callable, and
what it returns when called. -/
def addConstraint (callable : Bool) (r : Except PyErr ℕ) : M n Unit := do
  if !callable then raise .typeError
  let o ← get
  if o.opt.isSome then raise .instantiation
  let i ← lift r
  modify (fun o => { o with cons := o.cons ++ [U.mkCon i] })

/-- `add_objective` (base_optimizer.py:321-341); the argument is what the user's function returns. -/
def addObjective (r : Except PyErr ℕ) : M n Unit := do
  let o ← get
  if o.opt.isSome then raise .instantiation
  let i ← lift r
  modify (fun o => { o with added := o.added ++ [U.mkObj i] })

/-- `w >= lower` (base_optimizer.py:239). -/
def lowerCon (lb : Fin n → EReal) : ConBody Par (Env n) := .ineq n (const lb) wExpr

/-- `w <= upper` (base_optimizer.py:240). -/
def upperCon (ub : Fin n → EReal) : ConBody Par (Env n) := .ineq n wExpr (const ub)

/-- `cp.sum(w) == c`. -/
def sumCon (c : ℝ) : ConBody Par (Env n) := .eq 1 sumExpr (const (fun _ => (c : EReal)))

/-- `_map_bounds_to_constraints` (base_optimizer.py:203-240), after the bounds have been worked out
(`Verif.Base.mapBounds`). -/
def mapBounds (lb ub : Fin n → EReal) : M n Unit := do
  modify (fun o => { o with lb := lb, ub := ub })
  addLib (lowerCon lb)
  addLib (upperCon ub)

/-- The object before `_map_bounds_to_constraints` runs (base_optimizer.py:174-186,
efficient_frontier.py:87-88). -/
def blank : OState n :=
  { lb := fun _ => 0, ub := fun _ => 0, objective := none, added := [], cons := [], opt := none,
    weights := none, rf := none, maxRet := none, neutral := none }

/-- `deepcopy` (base_optimizer.py:189-201): the copied constraints and objectives keep their ids and
share their parameters and variables. -/
def deepcopy (o : OState n) : OState n := o

/-- The scan of `is_parameter_defined` (base_optimizer.py:249-260) over the parameter leaves. -/
def scan (name : String) : List (Except PyErr (List Par)) → Bool → Except PyErr Bool
  | [], found => .ok found
  | .error e :: _, _ => .error e
  | .ok ps :: rest, found =>
    match (ps.filter (fun p => p.name = name)).length, found with
    | 0, f => scan name rest f
    | 1, false => scan name rest true
    | _, _ => .error .instantiation

/-- `objective_and_constraints` (base_optimizer.py:244-248), as lists of parameter leaves. -/
def leavesOf (o : OState n) : List (Except PyErr (List Par)) :=
  o.cons.map (fun c => c.body.leaves) ++
    match o.objective with
    | none => []
    | some ob => [.ok ob.body.params]

/-- `is_parameter_defined` (base_optimizer.py:242-260). -/
def isDefined (name : String) : M n Bool := fun o h => (scan name (leavesOf o) false, o, h)

/-- `param.value = v`. -/
def Heap.setPar (h : Heap n) (p : Par) (v : ℝ) : Heap n :=
  match p.ref with
  | .usr i => { h with upar := Function.update h.upar i v }
  | .lib i => { h with lpar := Function.update h.lpar i v }

/-- Assigning `v` to each parameter of a list; a `nonneg` parameter rejects negative values. -/
def setPars (v : ℝ) : List Par → M n Unit
  | [] => pure ()
  | p :: ps => fun o h =>
    if p.nonneg ∧ v < 0 then (.error .valueError, o, h) else setPars v ps o (h.setPar p v)

/-- All parameter leaves with the given name. -/
def named (name : String) (o : OState n) : List Par :=
  ((leavesOf o).filterMap Except.toOption).flatten.filter (fun p => p.name = name)

/-- `update_parameter_value` (base_optimizer.py:262-280).  Line 280 is unreachable: a name found by
`is_parameter_defined` is updated. -/
def updatePar (name : String) (v : ℝ) : M n Unit := do
  if !(← isDefined name) then raise .instantiation
  let o ← get
  setPars v (named name o)

/-- The problem a `cp.Problem` denotes at the current parameter values. -/
def Opt.prob (p : Opt n) (h : Heap n) : Prob n where
  obj s := p.obj.body.val ⟨s, h.upar, h.lpar⟩
  feas s := ∀ c ∈ p.cons, c.sat ⟨s, h.upar, h.lpar⟩

/-- Whether `cp.Problem` accepts the list of constraints: constraints and Booleans only. -/
def usable (cs : List (Con n)) : Prop := ∀ c ∈ cs, c.body ≠ .junk

/-- `{const.id for const in self._constraints}`; Booleans have no id. -/
def idsOf : List (Con n) → Except PyErr (List Ref)
  | [] => .ok []
  | c :: cs =>
    match c.body with
    | .bool _ => .error .attribute
    | _ => (idsOf cs).map (c.id :: ·)

/-- Equality of the two id sets. -/
def sameIds (a b : List Ref) : Bool := a.all (· ∈ b) && b.all (· ∈ a)

/-- Rounding of the solution (base_optimizer.py:318). -/
def round16 (w : Fin n → ℝ) : Fin n → ℝ := fun i => npRound 16 (w i)

/-- `self._opt.solve(…)` and what follows (base_optimizer.py:307-319). -/
def callSolver (p : Opt n) : M n (Fin n → ℝ) := fun o h =>
  let P := p.prob h
  let h' := { h with log := h.log ++ [P] }
  match S h.log.length P with
  | .optimal s _ =>
    (.ok (round16 s.w), { o with weights := some (round16 s.w) }, { h' with vals := some s })
  | .status s => (.error .optimization, o, { h' with vals := s })
  | .raised .typeError => (.error .optimization, o, h')
  | .raised .dcp => (.error .optimization, o, h')
  | .raised e => (.error e, o, h')

open Classical in
/-- `_solve_cvxpy_opt_problem` (base_optimizer.py:282-319).  The result is the array `weights`; the
dict made from it is `Verif.Base.makeOutput`. -/
def solve : M n (Fin n → ℝ) := do
  let o ← get
  match o.opt with
  | none =>
    match o.objective with
    | none => raise .optimization
    | some ob =>
      if ¬ ob.body.scalar ∨ ¬ usable o.cons then raise .valueError
      else
        match idsOf o.cons with
        | .error e =>
          modify (fun o => { o with opt := some ⟨ob, o.cons, ob.id, none⟩ })
          raise e
        | .ok ids =>
          modify (fun o => { o with opt := some ⟨ob, o.cons, ob.id, some ids⟩ })
          callSolver S ⟨ob, o.cons, ob.id, some ids⟩
  | some p =>
    match o.objective with
    | none => raise .attribute
    | some ob =>
      if ob.id ≠ p.initObj then raise .instantiation
      else
        let ids ← lift (idsOf o.cons)
        match p.initCons with
        | none => raise .attribute
        | some ini =>
          if !(sameIds ids ini) then raise .instantiation
          else callSolver S p

/-- `convex_objective` (base_optimizer.py:407-437); the first argument is what the user's function
returns. -/
def convexObjective (r : Except PyErr ℕ) (sumToOne : Bool) : M n (Fin n → ℝ) := do
  let i ← lift r
  modify (fun o => { o with objective := some (U.mkObj i) })
  addAll
  if sumToOne then addLib (sumCon 1)
  solve S

/-- `nonconvex_objective` (base_optimizer.py:439-512).  `minimize` is scipy's: from the bounds, whether
the sum constraint is included, and (implicitly) the other arguments to the final point or an
exception.  The success flag of scipy is not looked at. -/
def nonconvexObjective (minimize : (Fin n → EReal) → (Fin n → EReal) → Bool → Except PyErr (Fin n → ℝ))
    (sumToOne : Bool) : M n (Fin n → ℝ) := do
  let o ← get
  let x ← lift (minimize o.lb o.ub sumToOne)
  modify (fun o => { o with weights := some x })
  pure x

/-- One loop of `add_sector_constraints`: `upper` tells `<=` from `>=`. -/
def addSectors (sector : Fin n → Option String) (upper : Bool) : List (Option String × ℝ) → M n Unit
  | [] => pure ()
  | (s, b) :: rest => do
    let lhs : Expr Par (Env n) 1 := real (fun x _ => ∑ i, if sector i = s then x.w i else 0)
    let c : Expr Par (Env n) 1 := const (fun _ => (b : EReal))
    addLib (if upper then .ineq 1 lhs c else .ineq 1 c lhs)
    addSectors sector upper rest

/-- `add_sector_constraints` (base_optimizer.py:368-405).  `sector i` is
`sector_mapper.get(tickers[i])`, `none` standing for `None`; the two dicts are lists of items.  The
lambdas are called at once, so they see the loop variables of their own iteration. -/
def addSectorConstraints (sector : Fin n → Option String) (lower upper : List (Option String × ℝ)) :
    M n Unit := do
  addSectors sector true upper
  addSectors sector false lower

end methods

end Verif.Convex
