import Verif.Props.SharpeCases
import Verif.Props.Plot
import Verif.Props.TargetCases

/-!
Property C80: when `max_sharpe` returns weights, and when it refuses.
-/

noncomputable section

namespace Verif.Convex
open Verif.Py Verif.Base Matrix

variable {n : ℕ} {U : Uni n} {S : Solver n} {D : Data n} {cfg : Cfg n} {o : OState n} {upar : ℕ → ℝ}

/-- An admissible portfolio with a return above `rf` whose Sharpe ratio no admissible portfolio exceeds (written without
division, for portfolios without risk). -/
structure BestSharpe (U : Uni n) (cfg : Cfg n) (upar : ℕ → ℝ) (cov : Matrix (Fin n) (Fin n) ℝ) (mu : Fin n → ℝ) (rf : ℝ)
    (w : Fin n → ℝ) (usr : ℕ → ℝ) : Prop where
  adm : Admissible U cfg upar false w usr
  beats : rf < w ⬝ᵥ mu
  best : ∀ w' usr', Admissible U cfg upar false w' usr' → (w' ⬝ᵥ mu - rf) * vol cov w ≤ (w ⬝ᵥ mu - rf) * vol cov w'

theorem sharpe_pos {cov : Matrix (Fin n) (Fin n) ℝ} {mu : Fin n → ℝ} {rf : ℝ} {v : ℕ}
    (hlb : ∀ i, ∃ l : ℝ, cfg.lb i = l) {s : Asg n} (hf : (sharpeProb U cfg cov mu rf v upar).feas s) : 0 < s.lib v 0 := by
  refine lt_of_le_of_ne hf.2.2.1 fun h0 => ?_
  obtain ⟨f1, f2, -, f4, -⟩ := hf
  rw [← h0] at f2 f4
  have hnn : ∀ i, 0 ≤ s.w i := by
    intro i
    obtain ⟨l, hl⟩ := hlb i
    have := (f4 i).1
    rw [hl, ← EReal.coe_mul, mul_zero] at this
    exact EReal.coe_le_coe_iff.1 this
  have hz : ∀ i, s.w i = 0 := fun i =>
    (Finset.sum_eq_zero_iff_of_nonneg (fun i _ => hnn i)).1 f2 i (Finset.mem_univ i)
  rw [Finset.sum_eq_zero (fun i _ => by rw [hz i, mul_zero])] at f1
  exact zero_ne_one f1

/-- A portfolio of largest Sharpe ratio gives an optimum of the transformed problem. -/
theorem sharpe_opt_of {cov : Matrix (Fin n) (Fin n) ℝ} {mu : Fin n → ℝ} {rf : ℝ} (v : ℕ) (hp : cov.PosSemidef)
    (hobj : cfg.objs = []) (hlb : ∀ i, ∃ l : ℝ, cfg.lb i = l)
    (hc : ∀ i, Added.usr i ∈ cfg.cons → Scalable upar (U.con i)) {w : Fin n → ℝ} {u : ℕ → ℝ}
    (h : BestSharpe U cfg upar cov mu rf w u) : ∃ s x, IsOpt (sharpeProb U cfg cov mu rf v upar) s x := by
  have hobj' : ∀ s : Asg n, (sharpeProb U cfg cov mu rf v upar).obj s = ((s.w ⬝ᵥ cov *ᵥ s.w : ℝ) : EReal) := by
    intro s
    simp [sharpeProb, hobj]
  have he : 0 < w ⬝ᵥ mu - rf := sub_pos.2 h.beats
  let k := 1 / (w ⬝ᵥ mu - rf)
  have hk : 0 < k := one_div_pos.2 he
  refine ⟨⟨k • w, k • u, fun _ _ => k⟩, _, (sharpe_feas hc hk w u rfl).2 ⟨h.adm, mul_one_div_cancel he.ne'⟩, hobj' _,
    fun s hs => ?_⟩
  have hk' := sharpe_pos hlb hs
  let k' := s.lib v 0
  let w' : Fin n → ℝ := fun i => s.w i / k'
  let u' : ℕ → ℝ := fun i => s.usr i / k'
  have ew : k' • w' = s.w := by
    funext i
    exact mul_div_cancel₀ (s.w i) hk'.ne'
  have eu : k' • u' = s.usr := by
    funext i
    exact mul_div_cancel₀ (s.usr i) hk'.ne'
  have es : (⟨k' • w', k' • u', s.lib⟩ : Asg n) = s := by rw [ew, eu]
  rw [← es] at hs
  obtain ⟨hA, hr⟩ := (sharpe_feas hc hk' w' u' rfl).1 hs
  have hb := h.best _ _ hA
  rw [hobj', hobj', EReal.coe_le_coe_iff, ← ew]
  have hsq : ∀ z, z ⬝ᵥ cov *ᵥ z = vol cov z ^ 2 := fun z =>
    (Real.sq_sqrt (by simpa using hp.dotProduct_mulVec_nonneg z)).symm
  have hv : ∀ z, 0 ≤ vol cov z := fun z => Real.sqrt_nonneg _
  rw [hsq, hsq, vol_smul cov hk.le, vol_smul cov hk'.le]
  refine pow_le_pow_left₀ (mul_nonneg hk.le (hv w)) ?_ 2
  have e1 : (w ⬝ᵥ mu - rf) * k = 1 := mul_one_div_cancel he.ne'
  calc k * vol cov w = k * k' * ((w' ⬝ᵥ mu - rf) * vol cov w) := by
        linear_combination -k * vol cov w * hr
    _ ≤ k * k' * ((w ⬝ᵥ mu - rf) * vol cov w') := mul_le_mul_of_nonneg_left hb (mul_nonneg hk.le hk'.le)
    _ = _ := by linear_combination k' * vol cov w' * e1

theorem Scalable.comparison {c : ConBody ℕ (UEnv n)} (h : Scalable upar c) : Comparison c := by
  cases c with
  | ineq m a b => exact .inl ⟨_, _, _, rfl⟩
  | eq m a b => exact .inr ⟨_, _, _, rfl⟩
  | _ => exact h.elim

/-- **C80** (part).  The first optimisation of an object, with no objectives added, finite lower bounds and constraints
that scale with the portfolio: `max_sharpe` returns weights exactly if some portfolio has the largest Sharpe ratio and
some asset beats the rate, and then the rounded weights of such a portfolio; if no asset beats the rate it raises
ValueError, and otherwise OptimizationError. -/
theorem C80_outcome_partial (hU : Usable U D) (hk : D.kind = .ef) (hsym : D.symOk = true) {mu : Fin n → ℝ}
    (hmu : D.mu = some mu) (hp : D.cov.PosSemidef) (hS : Decides S) {W : World n} {j : ℕ} (hW : Reachable U S D W)
    (hj : W.objs[j]? = some (cfg, o)) (ho : o.opt = none) (hobj : cfg.objs = []) (hlb : ∀ i, ∃ l : ℝ, cfg.lb i = l)
    (hc : ∀ i, Added.usr i ∈ cfg.cons → Scalable W.heap.upar (U.con i)) (rf : ℝ) :
    ((∀ i, mu i ≤ rf) → (run U S D (.maxSharpe rf) o W.heap).1 = .error .valueError) ∧
    ((∃ i, rf < mu i) →
      (∃ w s usr, (run U S D (.maxSharpe rf) o W.heap).1 = .ok (some w) ∧ Rounded w s ∧
        BestSharpe U cfg W.heap.upar D.cov mu rf s usr) ∨
      (run U S D (.maxSharpe rf) o W.heap).1 = .error .optimization ∧
        ∀ s usr, ¬ BestSharpe U cfg W.heap.upar D.cov mu rf s usr) := by
  constructor
  · intro h
    exact congrArg Prod.fst (badArg_run (.rate hk hmu h) o W.heap)
  intro hr
  obtain ⟨g, hm⟩ := good_of_reachable hU hW _ (List.mem_of_getElem? hj)
  obtain ⟨v, e, -⟩ := sharpe_reaches (S := S) hU hk hsym hmu hr g hm ho fun i hi => (hc i hi).comparison
  have hR := hS.right W.heap.log.length (sharpeProb U cfg D.cov mu rf v W.heap.upar)
  cases hs : S W.heap.log.length (sharpeProb U cfg D.cov mu rf v W.heap.upar) with
  | optimal s x =>
    rw [hs] at hR e
    obtain ⟨-, a2, a3, a4⟩ := sharpe_opt hobj hlb hc hR
    exact .inl ⟨_, _, _, e, round16_rounded _, a2, a3, a4⟩
  | raised e => exact absurd hs (hS.quiet _ _ _)
  | status x =>
    rw [hs] at e
    refine .inr ⟨e, fun w u hb => ?_⟩
    obtain ⟨s, y, hopt⟩ := sharpe_opt_of v hp hobj hlb hc hb
    obtain ⟨s', v', h'⟩ := hS.solves W.heap.log.length _ _ _ hopt
    rw [hs] at h'
    cases h'

/-- **C80**: with lower bounds that are not negative, the refused rates are the ones no portfolio beats. -/
theorem C80_refusal {mu : Fin n → ℝ} {rf : ℝ} (hlb : ∀ i, 0 ≤ cfg.lb i) (h : ∀ i, mu i ≤ rf) (w : Fin n → ℝ)
    (usr : ℕ → ℝ) (hA : Admissible U cfg upar false w usr) : w ⬝ᵥ mu ≤ rf := by
  have hs : ∑ i, w i = 1 := hA.sum
  have hw : ∀ i, 0 ≤ w i := fun i => by
    have := hA.within
    simp only [Within, Bool.false_eq_true, false_and, if_false] at this
    exact EReal.coe_nonneg.1 ((hlb i).trans (this i).1)
  calc w ⬝ᵥ mu ≤ ∑ i, w i * rf := Finset.sum_le_sum fun i _ => mul_le_mul_of_nonneg_left (h i) (hw i)
    _ = rf := by rw [← Finset.sum_mul, hs, one_mul]

/-! ### Cases -/

theorem new_within {lb ub w : Fin n → ℝ} : Within ⟨fun i => (lb i : EReal), fun i => (ub i : EReal), [], []⟩ false w ↔
    ∀ i, lb i ≤ w i ∧ w i ≤ ub i := by
  simp only [Within, Bool.false_eq_true, false_and, if_false, EReal.coe_le_coe_iff]

theorem new_adm {lb ub w : Fin n → ℝ} {u : ℕ → ℝ} :
    Admissible exU ⟨fun i => (lb i : EReal), fun i => (ub i : EReal), [], []⟩ upar false w u ↔
      (∀ i, lb i ≤ w i ∧ w i ≤ ub i) ∧ ∑ i, w i = 1 :=
  ⟨fun h => ⟨new_within.1 h.within, h.sum⟩, fun h => ⟨new_within.2 h.1, by simp, h.2⟩⟩

/-- **C80 is false of the code** when short positions are allowed: the rate is compared with the assets, not with the
portfolios.  Two uncorrelated assets of variance 1 with returns 0 and -1, weights between -1 and 2, rate 0: the portfolio
(2, -1) has return 1 and the largest Sharpe ratio, and `max_sharpe(0)` raises ValueError. -/
theorem C80_short_false {S : Solver 2} : ∃ (W : World 2) (cfg : Cfg 2) (o : OState 2),
    Reachable exU S (exD ![0, -1]) W ∧ W.objs[0]? = some (cfg, o) ∧ o.opt = none ∧ cfg.objs = [] ∧ cfg.cons = [] ∧
    (∀ i, cfg.lb i = (-1 : ℝ) ∧ cfg.ub i = (2 : ℝ)) ∧
    (run exU S (exD ![0, -1]) (.maxSharpe 0) o W.heap).1 = .error .valueError ∧
    BestSharpe exU cfg W.heap.upar (exD ![0, -1] : Data 2).cov ![0, -1] 0 ![2, -1] fun _ => 0 := by
  refine ⟨newWorld (fun _ => ((-1 : ℝ) : EReal)) (fun _ => ((2 : ℝ) : EReal)) fun _ => 0, _, _, .new _ _ _, rfl, rfl, rfl,
    rfl, fun i => ⟨rfl, rfl⟩, ?_, ?_⟩
  · refine congrArg Prod.fst (badArg_run (.rate (D := exD ![0, -1]) (mu := ![0, -1]) rfl rfl fun i => ?_) _ _)
    fin_cases i <;> norm_num
  · refine ⟨new_adm.2 ⟨fun i => ?_, ?_⟩, ?_, fun w u hA => ?_⟩
    · fin_cases i <;> norm_num
    · norm_num [Fin.sum_univ_two]
    · rw [ret_two]; norm_num
    · obtain ⟨h1, h2⟩ := new_adm.1 hA
      rw [Fin.sum_univ_two] at h2
      have h0 : w 0 = 1 - w 1 := by linarith
      have hb := (h1 1).1
      rw [ret_two, ret_two]
      show (w 0 * 0 + w 1 * -1 - 0) * vol 1 ![2, -1] ≤ (2 * 0 + -1 * -1 - 0) * vol 1 w
      rw [vol_two, vol_two]
      show (w 0 * 0 + w 1 * -1 - 0) * Real.sqrt (2 ^ 2 + (-1) ^ 2) ≤ (2 * 0 + -1 * -1 - 0) * Real.sqrt (w 0 ^ 2 + w 1 ^ 2)
      have e1 : w 0 * 0 + w 1 * -1 - 0 = -w 1 := by ring
      have e2 : (2 * 0 + -1 * -1 - 0 : ℝ) = 1 := by norm_num
      rw [e1, e2, one_mul]
      by_cases hn : 0 ≤ w 1
      · exact (mul_nonpos_of_nonpos_of_nonneg (by linarith) (Real.sqrt_nonneg _)).trans (Real.sqrt_nonneg _)
      · rw [not_le] at hn
        refine Real.le_sqrt_of_sq_le ?_
        rw [mul_pow, Real.sq_sqrt (by norm_num), h0]
        nlinarith

/-- A portfolio with the largest Sharpe ratio is found. -/
example {S : Solver 2} (hS : Decides S) : ∃ w s usr, (run exU S (exD ![0.3, 0.1]) (.maxSharpe 0) exO (exW : World 2).heap).1 = .ok (some w) ∧
    Rounded w s ∧ BestSharpe exU exCfg (exW : World 2).heap.upar 1 ![0.3, 0.1] 0 s usr := by
  rcases (C80_outcome_partial (exU_usable _) rfl rfl (mu := ![0.3, 0.1]) rfl PosSemidef.one hS exW_reachable exW_get exO_opt rfl
    (fun _ => ⟨0, rfl⟩) nofun 0).2 ⟨0, by norm_num⟩ with h | ⟨h, -⟩
  · exact h
  · rw [tangency_run hS.toExact (exU_usable _) exW_reachable exW_get exO_opt nofun rfl rfl rfl nofun] at h
    cases h

/-- At most a fifth in the only asset that beats the rate: no portfolio beats it, and OptimizationError is raised. -/
example {S : Solver 2} (hS : Decides S) : ∃ (W : World 2) (cfg : Cfg 2) (o : OState 2),
    Reachable exU S (exD ![0.3, 0.1]) W ∧ W.objs[0]? = some (cfg, o) ∧
    (run exU S (exD ![0.3, 0.1]) (.maxSharpe 0.2) o W.heap).1 = .error .optimization := by
  refine ⟨newWorld (fun i => ((![0, 0] : Fin 2 → ℝ) i : EReal)) (fun i => ((![0.2, 1] : Fin 2 → ℝ) i : EReal)) fun _ => 0, _, _,
    .new _ _ _, rfl, ?_⟩
  have hj : (newWorld (fun i => ((![0, 0] : Fin 2 → ℝ) i : EReal)) (fun i => ((![0.2, 1] : Fin 2 → ℝ) i : EReal))
    fun _ => 0).objs[0]? = some (⟨fun i => ((![0, 0] : Fin 2 → ℝ) i : EReal), fun i => ((![0.2, 1] : Fin 2 → ℝ) i : EReal),
      [], []⟩, _) := rfl
  rcases (C80_outcome_partial (exU_usable _) rfl rfl (mu := ![0.3, 0.1]) rfl PosSemidef.one hS (.new _ _ _) hj rfl rfl
    (fun i => ⟨_, rfl⟩) (fun i hi => by cases hi) 0.2).2 ⟨0, by norm_num⟩ with ⟨w, s, u, -, -, hb⟩ | ⟨h, -⟩
  · have hb' := hb.beats
    obtain ⟨h1, h2⟩ := new_adm.1 hb.adm
    rw [ret_two] at hb'
    rw [Fin.sum_univ_two] at h2
    have h3 : s 0 ≤ 0.2 := (h1 0).2
    have hb' : (0.2 : ℝ) < s 0 * 0.3 + s 1 * 0.1 := hb'
    norm_num at h3 hb'
    exfalso
    linarith
  · exact h

end Verif.Convex
