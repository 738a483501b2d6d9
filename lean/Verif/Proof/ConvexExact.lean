import Verif.Proof.ConvexReturn
import Verif.Proof.Rint
import Verif.Spec.Solver
import Mathlib.Tactic.Linarith
import Mathlib.Tactic.NormNum
import Mathlib.Tactic.Positivity
import Mathlib.Tactic.FieldSimp

/-! Results of calls when the solver is right, and data for examples. -/

noncomputable section

namespace Verif.Convex
open Verif.Py Verif.Base Matrix

variable {n : ℕ} {U : Uni n} {S : Solver n} {D : Data n} {cfg : Cfg n} {o : OState n} {h : Heap n}

/-- Multiples of 10⁻¹⁶ are not changed by the rounding. -/
theorem npRound_grid (k : ℤ) : npRound 16 ((k : ℝ) / 10 ^ 16) = (k : ℝ) / 10 ^ 16 := by
  unfold npRound
  rw [div_mul_cancel₀ _ (by positivity), Discrete.rint_intCast]

theorem round16_grid {w : Fin n → ℝ} (k : Fin n → ℤ) (hw : ∀ i, w i = (k i : ℝ) / 10 ^ 16) : round16 w = w := by
  funext i
  show npRound 16 (w i) = w i
  rw [hw i, npRound_grid]

/-- A call that hands on the answer for the documented problem returns an optimum of it, if there is one. -/
theorem Passes.exact {c : Call n} {r : Except PyErr (Option (Fin n → ℝ)) × OState n × Heap n}
    (p : Passes U S D cfg c h r) (hS : Exact S) (hk : D.kind ≠ .semi) {q : Ask n} (hq : ask D 0 c = some q)
    {s : Asg n} {v : ℝ} (ho : IsOpt (doc U cfg h.upar q) s v) :
    ∃ s', r.1 = .ok (some (round16 s'.w)) ∧ IsOpt (doc U cfg h.upar q) s' v ∧
      r.2.2.log = h.log ++ [doc U cfg h.upar q] := by
  obtain ⟨v', q', h1, h2, h3⟩ := p
  have : ask D v' c = ask D 0 c := by
    cases c <;> simp only [ask] <;> (try split) <;> simp_all
  rw [this, hq] at h1
  cases h1
  obtain ⟨s', e, hs⟩ := hS.sol h.log.length ho
  exact ⟨s', by rw [h2, e]; rfl, hs, h3⟩

/-- Solving the stored problem once more. -/
theorem solve_again {ob : Obj n} {p : Opt n} (ho : o.opt = some p) (h1 : o.objective = some ob)
    (hi : ob.id = p.initObj) (hc : p.initCons = some (o.cons.map Con.id)) (hp : ∀ c ∈ o.cons, Proper c.body) :
    solve S o h = callSolver S p o h := by
  unfold solve
  rw [bind_ok (a := o) (o' := o) (h' := h) rfl, ho]
  dsimp only
  rw [h1]
  dsimp only
  rw [if_neg (not_not.2 hi)]
  rw [bind_ok (a := o.cons.map Con.id) (o' := o) (h' := h)
    (by show (idsOf o.cons, o, h) = _; rw [idsOf_proper _ hp])]
  rw [hc]
  dsimp only
  rw [sameIds_refl]
  rfl

theorem callSolver_exact (hS : Exact S) (p : Opt n) {s : Asg n} {v : ℝ} (hv : IsOpt (p.prob h) s v) :
    ∃ s', IsOpt (p.prob h) s' v ∧ callSolver S p o h = (.ok (round16 s'.w), { o with weights := some (round16 s'.w) },
      { h with log := h.log ++ [p.prob h], vals := some s' }) := by
  obtain ⟨s', e, hs⟩ := hS.sol h.log.length hv
  refine ⟨s', hs, ?_⟩
  unfold callSolver
  dsimp only
  rw [e]

/-- User objects for examples: one objective that is zero and one constraint that always holds. -/
def exU : Uni n := ⟨fun _ => ("p", false), fun _ => ⟨true, [], fun _ => 0⟩, fun _ => .other [] (fun _ => True)⟩

/-- Data of a small `EfficientFrontier`: uncorrelated assets of variance 1. -/
def exD (mu : Fin n → ℝ) : Data n :=
  { kind := .ef, mu := some mu, cov := 1, symOk := true, pinv := 1, T := 0, R := fun _ _ => 0, beta := 0, freq := 1,
    bench := 0 }

theorem exU_usable (mu : Fin n → ℝ) : Usable (exU : Uni n) (exD mu) where
  names _ := by simp [exU]
  scalar _ := rfl
  cons _ := ⟨nofun, nofun⟩
  mu := nofun
  tail := by rintro (h | h) <;> cases h

/-- The new object with weights between 0 and 1. -/
def exW : World n := newWorld (fun _ => 0) (fun _ => 1) (fun _ => 0)

/-- Its configuration and state. -/
def exCfg : Cfg n := ⟨fun _ => 0, fun _ => 1, [], []⟩

def exO : OState n := (mapBounds (fun _ => 0) (fun _ => 1) blank (heap₀ (fun _ => 0))).2.1

theorem exW_get : (exW : World n).objs[0]? = some (exCfg, exO) := rfl

theorem exO_opt : (exO : OState n).opt = none := rfl

theorem exW_reachable {D : Data n} : Reachable U S D (exW : World n) := .new _ _ _

theorem exW_good (hU : Usable U D) : Good U D exCfg (exO : OState n) exW.heap :=
  (good_of_reachable (S := fun _ _ => .status none) hU exW_reachable (exCfg, exO) (List.mem_of_getElem? exW_get)).1

theorem exWithin {w : Fin n → ℝ} : Within exCfg false w ↔ ∀ i, 0 ≤ w i ∧ w i ≤ 1 := by
  simp only [Within, Bool.false_eq_true, false_and, if_false, exCfg]
  exact forall_congr' fun i => by
    rw [show (0 : EReal) = ((0 : ℝ) : EReal) from EReal.coe_zero.symm,
      show (1 : EReal) = ((1 : ℝ) : EReal) from EReal.coe_one.symm, EReal.coe_le_coe_iff, EReal.coe_le_coe_iff]

theorem ex_feas {q : Ask n} (hq : q.mn = false) (s : Asg n) :
    (doc U exCfg h.upar q).feas s ↔ (∀ i, 0 ≤ s.w i ∧ s.w i ≤ 1) ∧ ∑ i, s.w i = 1 ∧ q.extra s := by
  simp only [doc, hq, exWithin]
  simp [exCfg]

theorem ex_obj {q : Ask n} (s : Asg n) : (doc U exCfg h.upar q).obj s = ((q.base s : ℝ) : EReal) := by
  simp [doc, exCfg]

/-- Weights as an assignment. -/
def ofW (w : Fin n → ℝ) : Asg n := ⟨w, fun _ => 0, fun _ _ => 0⟩

theorem ex_isOpt {q : Ask n} (hq : q.mn = false) {s : Asg n} {v : ℝ} :
    IsOpt (doc U exCfg h.upar q) s v ↔ ((∀ i, 0 ≤ s.w i ∧ s.w i ≤ 1) ∧ ∑ i, s.w i = 1 ∧ q.extra s) ∧ q.base s = v ∧
      ∀ s' : Asg n, (∀ i, 0 ≤ s'.w i ∧ s'.w i ≤ 1) → ∑ i, s'.w i = 1 → q.extra s' → v ≤ q.base s' := by
  constructor
  · rintro ⟨h1, h2, h3⟩
    refine ⟨(ex_feas hq s).1 h1, ?_, fun s' k1 k2 k3 => ?_⟩
    · rw [ex_obj] at h2; exact EReal.coe_eq_coe_iff.1 h2
    · have := h3 s' ((ex_feas hq s').2 ⟨k1, k2, k3⟩)
      rw [h2, ex_obj] at this
      exact EReal.coe_le_coe_iff.1 this
  · rintro ⟨h1, h2, h3⟩
    refine ⟨(ex_feas hq s).2 h1, by rw [ex_obj, h2], fun s' hs' => ?_⟩
    obtain ⟨k1, k2, k3⟩ := (ex_feas hq s').1 hs'
    rw [ex_obj, ex_obj, h2]
    exact EReal.coe_le_coe_iff.2 (h3 s' k1 k2 k3)

end Verif.Convex
