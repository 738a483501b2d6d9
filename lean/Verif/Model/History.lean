import Verif.Model.Frontier

/-!
Histories of calls on an optimizer object and on the copies made from it with `deepcopy`.
-/

noncomputable section

namespace Verif.Convex
open Verif.Py Verif.Base

variable {n : ℕ} (U : Uni n) (S : Solver n) (D : Data n)

/-- The calls a program can make on an object.  Arguments that are functions of the user are given by
what they return (or raise) when called. -/
inductive Call (n : ℕ)
  | addObjective (r : Except PyErr ℕ)
  | addConstraint (callable : Bool) (r : Except PyErr ℕ)
  | addSectors (sector : Fin n → Option String) (lower upper : List (Option String × ℝ))
  | convex (r : Except PyErr ℕ) (sumToOne : Bool)
  | nonconvex (minimize : (Fin n → EReal) → (Fin n → EReal) → Bool → Except PyErr (Fin n → ℝ))
      (sumToOne : Bool)
  | setWeights (w : Except PyErr (Fin n → ℝ))
  | setPar (i : ℕ) (v : ℝ)
  | minVolatility
  | maxSharpe (rf : ℝ)
  | maxUtility (riskAversion : ℝ) (mn : Bool)
  | efficientRisk (target : ℝ) (mn : Bool)
  | efficientReturn (isFloat : Bool) (target : ℝ) (mn : Bool)
  | minCvar (mn : Bool)
  | minCdar (mn : Bool)
  | minSemi (mn : Bool)

/-- `set_weights` (base_optimizer.py:70-77), given the array built from the dict; not available in
`EfficientCVaR` and `EfficientCDaR` (efficient_cvar.py:93-94, efficient_cdar.py:93-94). -/
def setWeights (w : Except PyErr (Fin n → ℝ)) : M n Unit := do
  if D.kind = .cvar ∨ D.kind = .cdar then raise .notImplemented
  let x ← lift w
  modify (fun o => { o with weights := some x })

/-- The user assigns to one of their own parameters: `param.value = v`. -/
def setUserPar (i : ℕ) (v : ℝ) : M n Unit := setPars v [U.toPar i]

/-- What a call does; optimisation methods return weights.  The same method name means different
things in different classes; methods a class disables raise NotImplementedError (efficient_cvar.py:107-114,
efficient_cdar.py:107-114, efficient_semivariance.py:103-107). -/
def run : Call n → M n (Option (Fin n → ℝ))
  | .addObjective r => do addObjective U r; pure none
  | .addConstraint c r => do addConstraint U c r; pure none
  | .addSectors s l u => do addSectorConstraints s l u; pure none
  | .convex r b => do let w ← convexObjective U S r b; pure (some w)
  | .nonconvex m b => do let w ← nonconvexObjective m b; pure (some w)
  | .setWeights w => do setWeights D w; pure none
  | .setPar i v => do setUserPar U i v; pure none
  | .minVolatility =>
    match D.kind with
    | .ef => do let w ← minVolatility S D; pure (some w)
    | _ => raise .notImplemented
  | .maxSharpe rf =>
    match D.kind with
    | .ef => do let w ← maxSharpe S D rf; pure (some w)
    | _ => raise .notImplemented
  | .maxUtility r mn =>
    match D.kind with
    | .ef => do let w ← maxUtility S D r mn; pure (some w)
    | .semi => do let w ← semiUtility S D r mn; pure (some w)
    | _ => raise .notImplemented
  | .efficientRisk t mn =>
    match D.kind with
    | .ef => do let w ← efficientRisk S D t mn; pure (some w)
    | .cvar => do let w ← cvarRisk S D t mn; pure (some w)
    | .cdar => do let w ← cdarRisk S D t mn; pure (some w)
    | .semi => do let w ← semiRisk S D t mn; pure (some w)
  | .efficientReturn f t mn =>
    match D.kind with
    | .ef => do let w ← efficientReturn S D f t mn; pure (some w)
    | .cvar => do let w ← cvarReturn S D t mn; pure (some w)
    | .cdar => do let w ← cdarReturn S D t mn; pure (some w)
    | .semi => do let w ← semiReturn S D f t mn; pure (some w)
  | .minCvar mn =>
    match D.kind with
    | .cvar => do let w ← minCvar S D mn; pure (some w)
    | _ => raise .attribute
  | .minCdar mn =>
    match D.kind with
    | .cdar => do let w ← minCdar S D mn; pure (some w)
    | _ => raise .attribute
  | .minSemi mn =>
    match D.kind with
    | .semi => do let w ← minSemi S D mn; pure (some w)
    | _ => raise .attribute

/-! ### Configurations: what the user asked for, read off the accepted calls -/

/-- A constraint the user has added: one of their own, or one sector bound. -/
inductive Added (n : ℕ)
  | usr (i : ℕ)
  | sector (sector : Fin n → Option String) (s : Option String) (upper : Bool) (b : ℝ)

/-- The bounds given to the constructor and the objectives and constraints added so far. -/
structure Cfg (n : ℕ) where
  lb : Fin n → EReal
  ub : Fin n → EReal
  objs : List ℕ
  cons : List (Added n)

/-- The configuration after a call, given whether the call was accepted. -/
def Cfg.after (c : Cfg n) (accepted : Bool) : Call n → Cfg n
  | .addObjective (.ok i) => if accepted then { c with objs := c.objs ++ [i] } else c
  | .addConstraint _ (.ok i) => if accepted then { c with cons := c.cons ++ [.usr i] } else c
  | .addSectors s l u =>
    if accepted then
      { c with cons := c.cons ++ u.map (fun p => .sector s p.1 true p.2) ++
          l.map (fun p => .sector s p.1 false p.2) }
    else c
  | _ => c

/-- All objects, each with its configuration, and the shared state. -/
structure World (n : ℕ) where
  objs : List (Cfg n × OState n)
  heap : Heap n

/-- The shared state when the first object is created. -/
def heap₀ (upar : ℕ → ℝ) : Heap n :=
  { nextId := 0, nextPar := 0, nextVar := 3, lpar := fun _ => 0, upar := upar, vals := none, log := [] }

/-- A newly built object (base_optimizer.py:153-187). -/
def newWorld (lb ub : Fin n → EReal) (upar : ℕ → ℝ) : World n :=
  let r := mapBounds lb ub blank (heap₀ upar)
  { objs := [(⟨lb, ub, [], []⟩, r.2.1)], heap := r.2.2 }

def isOk {α : Type} : Except PyErr α → Bool
  | .ok _ => true
  | .error _ => false

/-- One object makes a call, or is copied. -/
inductive Step : World n → World n → Prop
  | call {W : World n} {j : ℕ} {cfg : Cfg n} {o : OState n} (hj : W.objs[j]? = some (cfg, o)) (c : Call n) :
      Step W
        { objs := W.objs.set j (cfg.after (isOk (run U S D c o W.heap).1) c, (run U S D c o W.heap).2.1)
          heap := (run U S D c o W.heap).2.2 }
  | copy {W : World n} {j : ℕ} {cfg : Cfg n} {o : OState n} (hj : W.objs[j]? = some (cfg, o)) :
      Step W { W with objs := W.objs ++ [(cfg, deepcopy o)] }

/-- Worlds that some history of calls leads to. -/
inductive Reachable : World n → Prop
  | new (lb ub : Fin n → EReal) (upar : ℕ → ℝ) : Reachable (newWorld lb ub upar)
  | step {W W' : World n} (h : Reachable W) (hs : Step U S D W W') : Reachable W'

end Verif.Convex
