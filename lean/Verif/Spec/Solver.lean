import Verif.Model.Convex

/-! What is asked of a convex solver. -/

noncomputable section

namespace Verif.Convex

variable {n : ℕ}

/-- `s` solves the problem with optimal value `v`. -/
structure IsOpt (P : Prob n) (s : Asg n) (v : ℝ) : Prop where
  feas : P.feas s
  value : P.obj s = (v : EReal)
  best : ∀ s', P.feas s' → P.obj s ≤ P.obj s'

/-- An answer is right: a reported optimum is one. -/
def Right (P : Prob n) : Answer n → Prop
  | .optimal s v => IsOpt P s v
  | _ => True

/-- A solver without numerical error that solves every problem that has a solution. -/
structure Exact (S : Solver n) : Prop where
  right : ∀ k P, Right P (S k P)
  solves : ∀ k P s v, IsOpt P s v → ∃ s' v', S k P = .optimal s' v'

theorem Exact.sol {S : Solver n} (hS : Exact S) (k : ℕ) {P : Prob n} {s : Asg n} {v : ℝ} (h : IsOpt P s v) :
    ∃ s', S k P = .optimal s' v ∧ IsOpt P s' v := by
  obtain ⟨s', v', e⟩ := hS.solves k P s v h
  have r := hS.right k P
  rw [e] at r
  have r : IsOpt P s' v' := r
  have h1 := r.best s h.feas
  have h2 := h.best s' r.feas
  rw [r.value, h.value] at h1 h2
  have : v' = v := le_antisymm (EReal.coe_le_coe_iff.1 h1) (EReal.coe_le_coe_iff.1 h2)
  subst this
  exact ⟨s', e, r⟩

open Classical in
/-- Such a solver exists. -/
theorem exists_exact : ∃ S : Solver n, Exact S := by
  refine ⟨fun _ P => if h : ∃ x : Asg n × ℝ, IsOpt P x.1 x.2 then .optimal h.choose.1 h.choose.2 else .status none, ?_, ?_⟩
  · intro k P
    split
    · rename_i h; exact h.choose_spec
    · trivial
  · intro k P s v h
    have hx : ∃ x : Asg n × ℝ, IsOpt P x.1 x.2 := ⟨(s, v), h⟩
    exact ⟨_, _, dif_pos hx⟩

end Verif.Convex
