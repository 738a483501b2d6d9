import Verif.Proof.Refused
import Verif.Proof.ConvexExact

/-!
C77: a disabled method or an argument that cannot be used raises, and leaves the object, its copies and all parameters as
they were.
-/

noncomputable section

namespace Verif.Convex
open Verif.Py Verif.Base

variable {n : ℕ} {U : Uni n} {S : Solver n} {D : Data n} {c : Call n} {e : PyErr}

/-- Disabled methods raise and change nothing, whatever the object has been through. -/
theorem C77_disabled (h : Disabled D.kind c e) (o : OState n) (hp : Heap n) : run U S D c o hp = (.error e, o, hp) :=
  disabled_run h o hp

/-- Arguments that cannot be used are refused and change nothing. -/
theorem C77_argument (h : BadArg D c e) (o : OState n) (hp : Heap n) : run U S D c o hp = (.error e, o, hp) :=
  badArg_run h o hp

/-- In particular nothing any object does later depends on a refused call: the world is the one before. -/
theorem C77_world {W W' : World n} {j : ℕ} {cfg : Cfg n} {o : OState n} (hj : W.objs[j]? = some (cfg, o))
    (h : Disabled D.kind c e ∨ BadArg D c e)
    (hW' : W' = { objs := W.objs.set j (cfg.after (isOk (run U S D c o W.heap).1) c, (run U S D c o W.heap).2.1)
                  heap := (run U S D c o W.heap).2.2 }) : W' = W := by
  have hr : run U S D c o W.heap = (.error e, o, W.heap) := h.elim (C77_disabled · _ _) (C77_argument · _ _)
  have ha : cfg.after false c = cfg := by
    cases c with
    | addObjective r => cases r <;> rfl
    | addConstraint b r => cases r <;> rfl
    | _ => rfl
  rw [hW', hr]
  show World.mk (W.objs.set j (cfg.after false c, o)) W.heap = W
  rw [ha]
  have : W.objs.set j (cfg, o) = W.objs := by
    obtain ⟨hlt, he⟩ := List.getElem?_eq_some_iff.1 hj
    rw [← he]; exact List.set_getElem_self hlt
  rw [this]

/-! ### Cases -/

/-- Data of an `EfficientCVaR` over two days. -/
def cvarD : Data 2 :=
  { kind := .cvar, mu := some ![0.2, 0.1], cov := 0, symOk := true, pinv := 0, T := 2, R := ![![0.1, 0], ![-0.2, 0.1]],
    beta := 0.5, freq := 252, bench := 0 }

/-- `set_weights` on an `EfficientCVaR`. -/
example (S : Solver 2) (o : OState 2) (h : Heap 2) :
    run exU S cvarD (.setWeights (.ok ![0.5, 0.5])) o h = (.error .notImplemented, o, h) :=
  C77_disabled (.weightsCvar _) o h

/-- `min_volatility` on an `EfficientCVaR` and `min_cvar` on an `EfficientFrontier`. -/
example (S : Solver 2) (o : OState 2) (h : Heap 2) :
    run exU S cvarD .minVolatility o h = (.error .notImplemented, o, h) ∧
    run exU S (exD ![0.2, 0.1]) (.minCvar false) o h = (.error .attribute, o, h) :=
  ⟨C77_disabled (.volatility (by decide)) o h, C77_disabled (.cvar (by decide) _) o h⟩

/-- A target return of 30% for semivariance with expected returns 20% and -10%. -/
example (S : Solver 2) (o : OState 2) (h : Heap 2) :
    run exU S { cvarD with kind := .semi, mu := some ![0.2, -0.1] } (.efficientReturn true 0.3 false) o h =
      (.error .valueError, o, h) := by
  refine C77_argument (.bigReturn rfl (mu := ![0.2, -0.1]) rfl (fun i => ?_) _ _) o h
  fin_cases i <;> norm_num [abs_lt]

/-- `max_sharpe` at 25% with returns 20% and 10%. -/
example (S : Solver 2) (o : OState 2) (h : Heap 2) :
    run exU S (exD ![0.2, 0.1]) (.maxSharpe 0.25) o h = (.error .valueError, o, h) := by
  refine C77_argument (.rate rfl (mu := ![0.2, 0.1]) rfl fun i => ?_) o h
  fin_cases i <;> norm_num

end Verif.Convex
