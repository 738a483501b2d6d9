import Verif.Spec.Convex
import Verif.Spec.Refused

/-! Argument checks of the target methods, and one call handing one problem to the solver. -/

noncomputable section

namespace Verif.Convex
open Verif.Py

variable {n : ℕ}

/-- Market neutrality of a request. -/
def Call.neutral : Call n → Bool
  | .maxUtility _ mn => mn
  | .efficientRisk _ mn => mn
  | .efficientReturn _ _ mn => mn
  | _ => false

/-- Two calls of the same target method, with any targets. -/
def SameMethod : Call n → Call n → Prop
  | .maxUtility _ _, .maxUtility _ _ => True
  | .efficientRisk _ _, .efficientRisk _ _ => True
  | .efficientReturn _ _ _, .efficientReturn _ _ _ => True
  | _, _ => False

/-- The argument of a target method passes the checks of the class.  The comparison of
`EfficientFrontier.efficient_return` with the largest return is left out. -/
def Accepts (D : Data n) : Call n → Prop
  | .maxUtility r _ => 0 < r
  | .efficientRisk t _ =>
    match D.kind with
    | .ef => 0 ≤ t ∧ ¬ numLt t (globalMinVol D)
    | .semi => True
    | _ => 0 ≤ t
  | .efficientReturn f t _ =>
    match D.kind with
    | .ef => f = true
    | .cvar => True
    | .cdar => 0 ≤ t
    | .semi => f = true ∧ 0 ≤ t ∧ ∃ mu, D.mu = some mu ∧ ∃ i, t ≤ |mu i|
  | _ => True

/-- The class has the method, the data it needs are there and the covariance matrix is symmetric. -/
def Complete (D : Data n) : Call n → Prop
  | .minVolatility => D.kind = .ef ∧ D.symOk = true
  | .maxUtility _ _ => (D.kind = .ef ∧ D.symOk = true ∨ D.kind = .semi) ∧ D.mu.isSome = true
  | .efficientRisk _ _ => (D.kind = .ef → D.symOk = true) ∧ D.mu.isSome = true
  | .efficientReturn _ _ _ => (D.kind = .ef → D.symOk = true) ∧ D.mu.isSome = true
  | .minCvar _ => D.kind = .cvar
  | .minCdar _ => D.kind = .cdar
  | .minSemi _ => D.kind = .semi
  | _ => False

/-- The weights the caller gets from a solver's answer. -/
def Returned (a : Answer n) : Except PyErr (Option (Fin n → ℝ)) :=
  match a with
  | .optimal s _ => .ok (some (round16 s.w))
  | .status _ => .error .optimization
  | .raised e => .error (if e = .typeError ∨ e = .dcp then .optimization else e)

/-- The call gives the solver exactly one problem, the documented one, and hands on its answer. -/
def Passes (U : Uni n) (S : Solver n) (D : Data n) (cfg : Cfg n) (c : Call n) (h : Heap n)
    (r : Except PyErr (Option (Fin n → ℝ)) × OState n × Heap n) : Prop :=
  ∃ v q, ask D v c = some q ∧ r.1 = Returned (S h.log.length (doc U cfg h.upar q)) ∧
    r.2.2.log = h.log ++ [doc U cfg h.upar q]

/-- Calls without bearing on the problem, `accepted` telling whether they were accepted: `set_weights`,
`nonconvex_objective`, new values for the user's parameters, objectives and constraints that were refused, disabled
methods and arguments that cannot be used. -/
def Idle (D : Data n) (accepted : Bool) : Call n → Prop
  | .setWeights _ | .setPar _ _ | .nonconvex _ _ => True
  | .addObjective _ | .addConstraint _ _ | .addSectors _ _ _ => accepted = false
  | c => ∃ e, Disabled D.kind c e ∨ BadArg D c e

/-- Histories in which object `j` only gets calls of one target method with one neutrality setting, with
any targets, and idle calls, while anything may happen to other objects, parameters and copies. -/
inductive Retargets (U : Uni n) (S : Solver n) (D : Data n) (j : ℕ) (c₀ : Call n) (W : World n) : World n → Prop
  | refl : Retargets U S D j c₀ W W
  | call {W₁ : World n} {cfg : Cfg n} {o : OState n} (hr : Retargets U S D j c₀ W W₁)
      (hj : W₁.objs[j]? = some (cfg, o)) (c : Call n) (hs : SameMethod c₀ c) (hn : c.neutral = c₀.neutral) :
      Retargets U S D j c₀ W
        { objs := W₁.objs.set j (cfg.after (isOk (run U S D c o W₁.heap).1) c, (run U S D c o W₁.heap).2.1)
          heap := (run U S D c o W₁.heap).2.2 }
  | idle {W₁ : World n} {cfg : Cfg n} {o : OState n} (hr : Retargets U S D j c₀ W W₁)
      (hj : W₁.objs[j]? = some (cfg, o)) (c : Call n) (hi : Idle D (isOk (run U S D c o W₁.heap).1) c) :
      Retargets U S D j c₀ W
        { objs := W₁.objs.set j (cfg.after (isOk (run U S D c o W₁.heap).1) c, (run U S D c o W₁.heap).2.1)
          heap := (run U S D c o W₁.heap).2.2 }
  | other {W₁ W₂ : World n} (hr : Retargets U S D j c₀ W W₁) (hs : Step U S D W₁ W₂)
      (hj : W₂.objs[j]? = W₁.objs[j]?) : Retargets U S D j c₀ W W₂

/-- The three methods that add to the problem refuse, and nothing changes. -/
def Refuses (U : Uni n) (S : Solver n) (D : Data n) (o : OState n) (h : Heap n) : Prop :=
  (∀ r, run U S D (.addObjective r) o h = (.error .instantiation, o, h)) ∧
  (∀ r, run U S D (.addConstraint true r) o h = (.error .instantiation, o, h)) ∧
  ∀ sec lower upper, lower ≠ [] ∨ upper ≠ [] →
    run U S D (.addSectors sec lower upper) o h = (.error .instantiation, o, h)

/-- The call counts as an attempted optimisation: it returned weights of a convex problem, or it called the
solver, not counting the computation of the largest return by `EfficientFrontier.efficient_return`. -/
def Attempted (D : Data n) (c : Call n) (o : OState n) (h : Heap n)
    (r : Except PyErr (Option (Fin n → ℝ)) × OState n × Heap n) : Prop :=
  (∃ w, r.1 = .ok (some w) ∧ ∀ m b, c ≠ .nonconvex m b) ∨
  (r.2.2.log ≠ h.log ∧ ((∀ f t mn, D.kind = .ef → c ≠ .efficientReturn f t mn) ∨ ∃ m, o.maxRet = some m ∧ m ≠ 0)) ∨
  h.log.length + 1 < r.2.2.log.length

end Verif.Convex
