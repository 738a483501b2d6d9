import Verif.Spec.Retarget
import Verif.Spec.Report

/-! Trying another method on an object that has been optimised. -/

noncomputable section

namespace Verif.Convex
open Verif.Py Verif.Base

variable {n : ℕ}

/-- The optimisation methods of the library, other than the two that take the user's objective. -/
def Optimises : Call n → Prop
  | .minVolatility | .maxSharpe _ | .maxUtility _ _ | .efficientRisk _ _ | .efficientReturn _ _ _ => True
  | .minCvar _ | .minCdar _ | .minSemi _ => True
  | _ => False

/-- One of these methods, or `convex_objective`, returned weights. -/
def Found (e : Event n) : Prop := (Optimises e.1 ∨ ∃ r b, e.1 = .convex r b) ∧ ∃ w, e.2 = .ok (some w)

/-- Calls of the same target method with the same neutrality, or both of `convex_objective`. -/
def Alike (c c' : Call n) : Prop :=
  SameMethod c c' ∧ c.neutral = c'.neutral ∨ (∃ r b, c = .convex r b) ∧ ∃ r b, c' = .convex r b

/-- The class has the method and the argument passes its checks; for `max_sharpe`, some return exceeds the rate. -/
def Offered (D : Data n) : Call n → Prop
  | .maxSharpe rf => D.kind = .ef ∧ D.symOk = true ∧ ∃ mu, D.mu = some mu ∧ ∃ i, rf < mu i
  | c => Complete D c ∧ Accepts D c

/-- A call of another method than `c₀`, offered by the class.  Not `efficient_return` of
`EfficientFrontier`, which first looks at the largest return, and of `EfficientCDaR`, which first adds its constraint. -/
def Switches (D : Data n) (c₀ c : Call n) : Prop :=
  Optimises c ∧ Offered D c ∧ ¬ SameMethod c₀ c ∧
    ∀ f t mn, c = .efficientReturn f t mn → D.kind = .cvar ∨ D.kind = .semi

/-- Anything may have happened to other objects and to parameters, and nothing to object `j`. -/
inductive Elsewhere (U : Uni n) (S : Solver n) (D : Data n) (j : ℕ) (W : World n) : World n → Prop
  | refl : Elsewhere U S D j W W
  | step {W₁ W₂ : World n} (hr : Elsewhere U S D j W W₁) (hs : Step U S D W₁ W₂) (hj : W₂.objs[j]? = W₁.objs[j]?) :
      Elsewhere U S D j W W₂

/-- Later worlds in which object `j` has not been given an objective with `convex_objective`, while anything else may have
happened to it and to other objects. -/
inductive Later (U : Uni n) (S : Solver n) (D : Data n) (j : ℕ) (W : World n) : World n → Prop
  | refl : Later U S D j W W
  | call {W₁ : World n} {cfg : Cfg n} {o : OState n} (hr : Later U S D j W W₁) (hj : W₁.objs[j]? = some (cfg, o))
      (c : Call n) (hc : ∀ r b, c ≠ .convex r b) :
      Later U S D j W
        { objs := W₁.objs.set j (cfg.after (isOk (run U S D c o W₁.heap).1) c, (run U S D c o W₁.heap).2.1)
          heap := (run U S D c o W₁.heap).2.2 }
  | other {W₁ W₂ : World n} (hr : Later U S D j W W₁) (hs : Step U S D W₁ W₂) (hj : W₂.objs[j]? = W₁.objs[j]?) :
      Later U S D j W W₂

end Verif.Convex
