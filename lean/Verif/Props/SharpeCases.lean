import Verif.Props.Sharpe
import Verif.Proof.SharpeReach
import Verif.Props.SolutionCases

/-! Cases for `Verif.Props.Sharpe`: an ordinary one, and a constraint for which the transformation is wrong. -/

noncomputable section

namespace Verif.Convex
open Verif.Py Verif.Base Matrix

variable {S : Solver 2} {U : Uni 2}

/-- The tangency portfolio of two uncorrelated assets with returns 0.3 and 0.1 is (3/4, 1/4). -/
theorem tangency {cfg : Cfg 2} {upar : ℕ → ℝ} {v : ℕ} (hlb : cfg.lb = fun _ => 0) (hub : cfg.ub = fun _ => 1)
    (hobj : cfg.objs = []) (hc : ∀ a ∈ cfg.cons, ∀ u x, a.scaled U upar 4 ⟨![3, 1], u, x⟩) :
    IsOpt (sharpeProb U cfg 1 ![0.3, 0.1] 0 v upar) ⟨![3, 1], fun _ => 0, fun _ _ => 4⟩ 10 ∧
      ∀ s, IsOpt (sharpeProb U cfg 1 ![0.3, 0.1] 0 v upar) s 10 → (fun i => s.w i / s.lib v 0) = ![3 / 4, 1 / 4] := by
  have hobj' : ∀ s : Asg 2, (sharpeProb U cfg 1 ![0.3, 0.1] 0 v upar).obj s = ((s.w 0 ^ 2 + s.w 1 ^ 2 : ℝ) : EReal) := by
    intro s
    show ((s.w ⬝ᵥ (1 : Matrix (Fin 2) (Fin 2) ℝ) *ᵥ s.w : ℝ) : EReal) + (cfg.objs.map _).sum = _
    rw [variance_two, hobj, List.map_nil, List.sum_nil, add_zero]
  have hex : ∀ w : Fin 2 → ℝ, ∑ i, ((![0.3, 0.1] : Fin 2 → ℝ) i - 0) * w i = 0.3 * w 0 + 0.1 * w 1 := by
    intro w
    rw [Fin.sum_univ_two]
    norm_num
  refine ⟨⟨⟨?_, ?_, ?_, fun i => ?_, fun a ha => hc a ha _ _⟩, ?_, fun s hs => ?_⟩, fun s hs => ?_⟩
  · rw [hex]; norm_num
  · rw [Fin.sum_univ_two]; norm_num
  · norm_num
  · rw [hlb, hub]
    dsimp only
    rw [zero_mul, one_mul, ← EReal.coe_zero, EReal.coe_le_coe_iff, EReal.coe_le_coe_iff]
    fin_cases i <;> norm_num
  · rw [hobj']
    norm_num
  · rw [hobj', hobj', EReal.coe_le_coe_iff]
    have h1 := hs.1
    rw [hex] at h1
    norm_num
    nlinarith [sq_nonneg (s.w 0 - 3 * s.w 1), sq_nonneg (s.w 0 - 3)]
  · have h1 := hs.feas.1
    rw [hex] at h1
    have h2 := hs.value
    rw [hobj', EReal.coe_eq_coe_iff] at h2
    have h3 : s.w 1 = 10 - 3 * s.w 0 := by linarith
    have h4 : (s.w 0 - 3) ^ 2 = 0 := by rw [h3] at h2; nlinarith
    have h5 : s.w 0 = 3 := by linarith [pow_eq_zero_iff two_ne_zero |>.1 h4]
    have h6 : s.w 1 = 1 := by linarith
    have h7 : ∑ i, s.w i = s.lib v 0 := hs.feas.2.1
    rw [Fin.sum_univ_two, h5, h6] at h7
    have h7 : s.lib v 0 = 4 := by linarith
    funext i
    rw [h7]
    fin_cases i
    · show s.w 0 / 4 = 3 / 4; rw [h5]
    · show s.w 1 / 4 = 1 / 4; rw [h6]

theorem grid_quarters : round16 (![3 / 4, 1 / 4] : Fin 2 → ℝ) = ![3 / 4, 1 / 4] := by
  refine round16_grid ![7500000000000000, 2500000000000000] fun i => ?_
  fin_cases i <;> norm_num

theorem tangency_run (hS : Exact S) {W : World 2} {cfg : Cfg 2} {o : OState 2} (hU : Usable U (exD ![0.3, 0.1]))
    (hW : Reachable U S (exD ![0.3, 0.1]) W) (hj : W.objs[0]? = some (cfg, o)) (ho : o.opt = none)
    (hcmp : ∀ i, Added.usr i ∈ cfg.cons → Comparison (U.con i)) (hlb : cfg.lb = fun _ => 0) (hub : cfg.ub = fun _ => 1)
    (hobj : cfg.objs = []) (hc : ∀ a ∈ cfg.cons, ∀ u x, a.scaled U W.heap.upar 4 ⟨![3, 1], u, x⟩) :
    (run U S (exD ![0.3, 0.1]) (.maxSharpe 0) o W.heap).1 = .ok (some ![3 / 4, 1 / 4]) := by
  obtain ⟨g, hm⟩ := good_of_reachable hU hW _ (List.mem_of_getElem? hj)
  obtain ⟨v, e, -⟩ := sharpe_reaches (S := S) hU rfl rfl (mu := ![0.3, 0.1]) rfl (rf := 0) ⟨0, by norm_num⟩ g hm ho hcmp
  obtain ⟨t1, t2⟩ := tangency (U := U) (upar := W.heap.upar) (v := v) hlb hub hobj hc
  obtain ⟨s', es, hs⟩ := hS.sol W.heap.log.length t1
  have es : S W.heap.log.length (sharpeProb U cfg (exD ![0.3, 0.1]).cov ![0.3, 0.1] 0 v W.heap.upar) = .optimal s' 10 := es
  rw [e, es]
  show Except.ok (some (round16 (fun i => s'.w i / s'.lib v 0))) = _
  rw [t2 s' hs, grid_quarters]

/-- The hypotheses of C43 are met. -/
example (hS : Exact S) : ∃ mu s usr, (exD ![0.3, 0.1]).mu = some mu ∧ Rounded ![3 / 4, 1 / 4] s ∧
    Admissible exU exCfg (exW : World 2).heap.upar false s usr ∧ 0 < s ⬝ᵥ mu := by
  obtain ⟨mu, s, usr, h1, h2, h3, h4, -⟩ := C43_max_sharpe_partial (exU_usable _) exW_reachable exW_get rfl (fun _ => ⟨0, rfl⟩)
    nofun (tangency_run hS (exU_usable _) exW_reachable exW_get exO_opt nofun rfl rfl rfl nofun) (hS.correct _ _)
  exact ⟨mu, s, usr, h1, h2, h3, h4⟩

/-- Norms, linear expressions and constants are among the constraints covered. -/
example (c : Fin 2 → ℝ) (b : ℝ) : Scalable (fun _ => 0) (n := 2)
    (.ineq 1 ⟨true, [], fun _ _ => (b : EReal)⟩ ⟨false, [], fun e _ => ((e.w ⬝ᵥ c : ℝ) : EReal)⟩) := by
  refine ⟨fun _ _ _ _ _ => rfl, fun t w u i _ => ?_⟩
  show ((t • w ⬝ᵥ c : ℝ) : EReal) = ((w ⬝ᵥ c : ℝ) : EReal) * (t : EReal)
  rw [smul_dotProduct, smul_eq_mul, mul_comm, EReal.coe_mul]

/-- The user's constraint `w[0] + 0.5 <= 1`. -/
def affU : Uni 2 :=
  { (exU : Uni 2) with
    con := fun _ => .ineq 1 ⟨false, [], fun e _ => ((e.w 0 + 0.5 : ℝ) : EReal)⟩ ⟨true, [], fun _ _ => ((1 : ℝ) : EReal)⟩ }

def affCfg : Cfg 2 := ⟨fun _ => 0, fun _ => 1, [], [.usr 0]⟩

def affO : OState 2 := { (exO : OState 2) with cons := exO.cons ++ [affU.mkCon 0] }

def affW : World 2 := ⟨[(affCfg, affO)], (exW : World 2).heap⟩

theorem affW_reachable {D : Data 2} : Reachable affU S D affW := by
  have h := Step.call (U := affU) (S := S) (D := D) (W := newWorld (fun _ => 0) (fun _ => 1) (fun _ => 0))
    (j := 0) rfl (.addConstraint true (.ok 0))
  exact .step (.new (fun _ => 0) (fun _ => 1) (fun _ => 0)) h

theorem affU_usable : Usable affU (exD ![0.3, 0.1]) where
  names _ := by simp [affU, exU]
  scalar _ := rfl
  cons _ := ⟨nofun, nofun⟩
  mu := nofun
  tail := by rintro (h | h) <;> cases h

/-- **C43 is false of the code**: with the added constraint `w[0] + 0.5 <= 1`, an exact solver and data for which
admissible portfolios of positive return exist, `max_sharpe` returns (3/4, 1/4), which violates the constraint. -/
theorem C43_affine_constraint_false (hS : Exact S) :
    Reachable affU S (exD ![0.3, 0.1]) affW ∧ affW.objs[0]? = some (affCfg, affO) ∧
    (run affU S (exD ![0.3, 0.1]) (.maxSharpe 0) affO affW.heap).1 = .ok (some ![3 / 4, 1 / 4]) ∧
    (∀ w usr, Admissible affU affCfg affW.heap.upar false w usr → w 0 ≤ 1 / 2) ∧
    Admissible affU affCfg affW.heap.upar false ![1 / 2, 1 / 2] (fun _ => 0) := by
  refine ⟨affW_reachable, rfl, ?_, fun w usr h => ?_, ⟨?_, fun a ha => ?_, ?_⟩⟩
  · refine tangency_run hS affU_usable affW_reachable rfl rfl (fun i _ => .inl ⟨_, _, _, rfl⟩) rfl rfl rfl fun a ha u x => ?_
    rw [List.mem_singleton.1 ha]
    show scaledCon 4 (affU.con 0) ⟨![3, 1], u, affW.heap.upar⟩
    simp only [affU, scaledCon, Bool.false_eq_true, if_false]
    intro i
    rw [← EReal.coe_mul, EReal.coe_le_coe_iff]
    norm_num
  · have := h.cons (.usr 0) (List.mem_singleton.2 rfl)
    have : ∀ _ : Fin 1, ((w 0 + 0.5 : ℝ) : EReal) ≤ ((1 : ℝ) : EReal) := this
    have := EReal.coe_le_coe_iff.1 (this 0)
    norm_num at this ⊢
    linarith
  · refine (exWithin (n := 2)).2 fun i => ?_
    fin_cases i <;> norm_num
  · rw [List.mem_singleton.1 ha]
    show ∀ _ : Fin 1, (((![1 / 2, 1 / 2] : Fin 2 → ℝ) 0 + 0.5 : ℝ) : EReal) ≤ ((1 : ℝ) : EReal)
    intro _
    rw [EReal.coe_le_coe_iff]
    norm_num
  · rw [Fin.sum_univ_two]
    norm_num

end Verif.Convex
