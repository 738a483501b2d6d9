import Verif.Proof.Calm
import Verif.Props.TailCases

/-! C61: what work on other objects leaves alone. -/

noncomputable section

namespace Verif.Convex
open Verif.Py Verif.Base Matrix

variable {n : ℕ} (U : Uni n) (S : Solver n) (D : Data n)

/-- `W'` follows `W` by calls on objects other than the `i`-th and by copying objects (among them the `i`-th). -/
inductive Others (i : ℕ) (W : World n) : World n → Prop
  | refl : Others i W W
  | call {W' : World n} (h : Others i W W') {j : ℕ} {cfg : Cfg n} {o : OState n} (hj : W'.objs[j]? = some (cfg, o))
      (hij : j ≠ i) (c : Call n) :
      Others i W
        { objs := W'.objs.set j (cfg.after (isOk (run U S D c o W'.heap).1) c, (run U S D c o W'.heap).2.1)
          heap := (run U S D c o W'.heap).2.2 }
  | copy {W' : World n} (h : Others i W W') {j : ℕ} {cfg : Cfg n} {o : OState n} (hj : W'.objs[j]? = some (cfg, o)) :
      Others i W { W' with objs := W'.objs ++ [(cfg, deepcopy o)] }

variable {U S D}

theorem Others.reachable {i : ℕ} {W W' : World n} (h : Others U S D i W W') (hW : Reachable U S D W) :
    Reachable U S D W' := by
  induction h with
  | refl => exact hW
  | call h hj hij c ih => exact ih.step (.call hj c)
  | copy h hj ih => exact ih.step (.copy hj)

theorem Others.log {i : ℕ} {W W' : World n} (hk : D.kind = .cvar ∨ D.kind = .cdar) (h : Others U S D i W W') :
    ∃ l, W'.heap.log = W.heap.log ++ l ∧ (l = [] → W'.heap.vals = W.heap.vals) := by
  induction h with
  | refl => exact ⟨[], (List.append_nil _).symm, fun _ => rfl⟩
  | copy h hj ih => exact ih
  | @call W' h j cfg o hj hij c ih =>
    obtain ⟨l, h1, h2⟩ := ih
    obtain ⟨l', k1, k2⟩ := run_calm (U := U) (S := S) hk c o W'.heap
    refine ⟨l ++ l', by rw [← List.append_assoc, ← h1]; exact k1, fun e => ?_⟩
    obtain ⟨e1, e2⟩ := List.append_eq_nil_iff.1 e
    exact (k2 e2).trans (h2 e1)

/-- **C61**, the part that is true.  Whatever is done to other objects, among them copies of this one, this object keeps
its settings, its weights, the return it reports and (being computed from the weights) the semideviation and Sortino
ratio it reports.  The CVaR and CDaR it reports stay the same as long as none of these calls gets as far as the solver.
Missing, and false by `C61_copy_false`: that they stay the same in any case. -/
theorem C61_others_partial {i : ℕ} {W W' : World n} {cfg : Cfg n} {o : OState n} (h : Others U S D i W W')
    (hi : W.objs[i]? = some (cfg, o)) :
    ∃ o', W'.objs[i]? = some (cfg, o') ∧ o'.weights = o.weights ∧ perfReturn D o' = perfReturn D o ∧
      (∀ rf, semiPerformance D rf o' = semiPerformance D rf o) ∧
      (D.kind = .cvar → W'.heap.log.length = W.heap.log.length →
        cvarPerformance D o' W'.heap = cvarPerformance D o W.heap) ∧
      (D.kind = .cdar → W'.heap.log.length = W.heap.log.length →
        cdarPerformance D o' W'.heap = cdarPerformance D o W.heap) := by
  have key : W'.objs[i]? = some (cfg, o) := by
    induction h with
    | refl => exact hi
    | call h hj hij c ih => exact (List.getElem?_set_ne hij).trans ih
    | copy h hj ih => exact (List.getElem?_append_left (List.getElem?_eq_some_iff.1 ih).1).trans ih
  have vals : (D.kind = .cvar ∨ D.kind = .cdar) → W'.heap.log.length = W.heap.log.length →
      W'.heap.vals = W.heap.vals := by
    intro hk e
    obtain ⟨l, h1, h2⟩ := h.log hk
    refine h2 (List.eq_nil_of_length_eq_zero ?_)
    have := congrArg List.length h1
    rw [List.length_append] at this
    omega
  refine ⟨o, key, rfl, rfl, fun _ => rfl, fun hk e => ?_, fun hk e => ?_⟩
  · unfold cvarPerformance
    rw [vals (.inl hk) e]
  · unfold cdarPerformance
    rw [vals (.inr hk) e]

/-- A case: an object, a copy of it, and a call on the copy that is refused before it reaches the solver. -/
example (S : Solver 2) : ∃ W', Others exU S (tD .cvar 0) 0 exW W' ∧ W'.objs.length = 2 ∧
    W'.heap.log.length = (exW (n := 2)).heap.log.length := by
  refine ⟨_, .call (j := 1) (cfg := exCfg) (o := deepcopy exO) (.copy .refl exW_get) rfl (by decide) (.maxSharpe 0), rfl, rfl⟩

end Verif.Convex
