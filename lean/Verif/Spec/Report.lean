import Verif.Model.Plot
import Verif.Spec.Portfolio

/-! What an object was asked and answered, and what its reports should show. -/

noncomputable section

namespace Verif.Convex
open Verif.Py Verif.Base Matrix

variable {n : ℕ}

/-- A call and what came back. -/
abbrev Event (n : ℕ) := Call n × Except PyErr (Option (Fin n → ℝ))

/-- The calls an object (or what it was copied from) has received, with their answers.  Whatever other objects do in
between shows in the shared state `h`, which is arbitrary. -/
inductive Hist (U : Uni n) (S : Solver n) (D : Data n) : List (Event n) → OState n → Prop
  | new (lb ub : Fin n → EReal) (h : Heap n) : Hist U S D [] (mapBounds lb ub blank h).2.1
  | call {es : List (Event n)} {o : OState n} (hist : Hist U S D es o) (c : Call n) (h : Heap n) :
      Hist U S D (es ++ [(c, (run U S D c o h).1)]) (run U S D c o h).2.1

/-- Worlds with what each of their objects has been asked and answered so far; a copy takes over the record of its
original. -/
inductive Traced (U : Uni n) (S : Solver n) (D : Data n) : World n → List (List (Event n)) → Prop
  | new (lb ub : Fin n → EReal) (upar : ℕ → ℝ) : Traced U S D (newWorld lb ub upar) [[]]
  | call {W : World n} {T : List (List (Event n))} {j : ℕ} {cfg : Cfg n} {o : OState n} {es : List (Event n)}
      (hT : Traced U S D W T) (hj : W.objs[j]? = some (cfg, o)) (he : T[j]? = some es) (c : Call n) :
      Traced U S D
        { objs := W.objs.set j (cfg.after (isOk (run U S D c o W.heap).1) c, (run U S D c o W.heap).2.1)
          heap := (run U S D c o W.heap).2.2 }
        (T.set j (es ++ [(c, (run U S D c o W.heap).1)]))
  | copy {W : World n} {T : List (List (Event n))} {j : ℕ} {cfg : Cfg n} {o : OState n} {es : List (Event n)}
      (hT : Traced U S D W T) (hj : W.objs[j]? = some (cfg, o)) (he : T[j]? = some es) :
      Traced U S D { W with objs := W.objs ++ [(cfg, deepcopy o)] } (T ++ [es])

/-- The portfolio an event shows: weights that were returned, or accepted by `set_weights`. -/
def Event.portfolio : Event n → Option (Fin n → ℝ)
  | (.setWeights (.ok w), .ok _) => some w
  | (_, .ok (some w)) => some w
  | _ => none

/-- The portfolio shown last. -/
def lastPortfolio (es : List (Event n)) : Option (Fin n → ℝ) := (es.filterMap Event.portfolio).getLast?

/-- `max_sharpe` with a risk-free rate below some asset's return, whatever came of it. -/
def Event.rate (D : Data n) : Event n → Option ℝ
  | (.maxSharpe rf, _) =>
    match D.kind, D.mu with
    | .ef, some mu => by classical exact if ∃ i, rf < mu i then some rf else none
    | _, _ => none
  | _ => none

/-- The rate of the last such call. -/
def lastRate (D : Data n) (es : List (Event n)) : Option ℝ := (es.filterMap (Event.rate D)).getLast?

/-- Return, volatility and Sharpe ratio of a portfolio; NaN, inf and -inf as in floating-point division. -/
def reportOf (cov : Matrix (Fin n) (Fin n) ℝ) (mu w : Fin n → ℝ) (rf : ℝ) : Option ℝ × Flt ℝ × Option (Flt ℝ) :=
  (some (w ⬝ᵥ mu), .fin (vol cov w), some (
    if vol cov w ≠ 0 then .fin ((w ⬝ᵥ mu - rf) / vol cov w)
    else if w ⬝ᵥ mu = rf then .nan else if rf < w ⬝ᵥ mu then .posInf else .negInf))

end Verif.Convex
