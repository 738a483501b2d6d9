import Verif.Props.Solution

/-!
Property C43: `max_sharpe`.
-/

noncomputable section

namespace Verif.Convex
open Verif.Py Verif.Base Matrix

variable {n : ℕ} {U : Uni n} {S : Solver n} {D : Data n} {cfg : Cfg n} {o : OState n} {upar : ℕ → ℝ}

/-- The expression does not depend on the variables. -/
def Fixed {m : ℕ} (upar : ℕ → ℝ) (a : Expr ℕ (UEnv n) m) : Prop :=
  ∀ w w' u u' i, a.val ⟨w, u, upar⟩ i = a.val ⟨w', u', upar⟩ i

/-- The expression is positively homogeneous in the variables: linear without constant term, or a norm … -/
def Homogeneous {m : ℕ} (upar : ℕ → ℝ) (a : Expr ℕ (UEnv n) m) : Prop :=
  ∀ (t : ℝ) w u i, 0 < t → a.val ⟨t • w, t • u, upar⟩ i = a.val ⟨w, u, upar⟩ i * (t : EReal)

/-- Constraints of the form `f(w) <= c`, `c <= f(w)` or `f(w) == c` with `f` positively homogeneous and `c` constant
(a parameter is possible for `f(w) <= c` and `f(w) == c` only). -/
def Scalable (upar : ℕ → ℝ) : ConBody ℕ (UEnv n) → Prop
  | .ineq _ a b => if a.isConst = true then Fixed upar a ∧ Homogeneous upar b else Homogeneous upar a ∧ Fixed upar b
  | .eq _ a b => Homogeneous upar a ∧ Fixed upar b
  | _ => False

theorem mul_pos_le {t : ℝ} (ht : 0 < t) (x y : EReal) : x * (t : EReal) ≤ y * (t : EReal) ↔ x ≤ y := by
  have h0 : (0 : EReal) ≤ (t : EReal) := EReal.coe_nonneg.2 ht.le
  have h1 : (0 : EReal) ≤ ((t⁻¹ : ℝ) : EReal) := EReal.coe_nonneg.2 (inv_nonneg.2 ht.le)
  have e : ∀ z : EReal, z * (t : EReal) * ((t⁻¹ : ℝ) : EReal) = z := by
    intro z
    rw [mul_assoc, ← EReal.coe_mul, mul_inv_cancel₀ ht.ne', EReal.coe_one, mul_one]
  refine ⟨fun h => ?_, fun h => mul_le_mul_of_nonneg_right h h0⟩
  have := mul_le_mul_of_nonneg_right h h1
  rwa [e, e] at this

theorem mul_pos_eq {t : ℝ} (ht : 0 < t) (x y : EReal) : x * (t : EReal) = y * (t : EReal) ↔ x = y := by
  rw [le_antisymm_iff, le_antisymm_iff, mul_pos_le ht, mul_pos_le ht]

theorem Scalable.iff {c : ConBody ℕ (UEnv n)} (h : Scalable upar c) {k : ℝ} (hk : 0 < k) (w : Fin n → ℝ) (u : ℕ → ℝ) :
    scaledCon k c ⟨k • w, k • u, upar⟩ ↔ c.sat ⟨w, u, upar⟩ := by
  cases c with
  | ineq m a b =>
    simp only [Scalable] at h
    simp only [scaledCon, ConBody.sat]
    split at h
    · rename_i hc
      rw [if_pos hc]
      refine forall_congr' fun i => ?_
      rw [h.1 _ w _ u i, h.2 k w u i hk, mul_pos_le hk]
    · rename_i hc
      rw [if_neg hc]
      refine forall_congr' fun i => ?_
      rw [h.2 _ w _ u i, h.1 k w u i hk, mul_pos_le hk]
  | eq m a b =>
    simp only [scaledCon, ConBody.sat]
    refine forall_congr' fun i => ?_
    rw [h.2 _ w _ u i, h.1 k w u i hk, mul_pos_eq hk]
  | other ps s => exact h.elim
  | bool b => exact h.elim
  | junk => exact h.elim

theorem scaled_iff {a : Added n} (h : ∀ i, a = .usr i → Scalable upar (U.con i)) {k : ℝ} (hk : 0 < k)
    (w : Fin n → ℝ) (u : ℕ → ℝ) (x y : ℕ → ℕ → ℝ) :
    a.scaled U upar k ⟨k • w, k • u, x⟩ ↔ a.holds U upar ⟨w, u, y⟩ := by
  cases a with
  | usr i => exact (h i rfl).iff hk w u
  | sector sec nm up b =>
    have e : ∑ i with sec i = nm, (k • w) i = (∑ i with sec i = nm, w i) * k := by
      rw [Finset.sum_mul]
      exact Finset.sum_congr rfl fun i _ => mul_comm _ _
    cases up
    · show b * k ≤ ∑ i with sec i = nm, (k • w) i ↔ b ≤ ∑ i with sec i = nm, w i
      rw [e]
      exact mul_le_mul_iff_left₀ hk
    · show ∑ i with sec i = nm, (k • w) i ≤ b * k ↔ ∑ i with sec i = nm, w i ≤ b
      rw [e]
      exact mul_le_mul_iff_left₀ hk

/-- The feasible points of the transformed problem with positive `k` are the admissible portfolios times `k`. -/
theorem sharpe_feas {cov : Matrix (Fin n) (Fin n) ℝ} {mu : Fin n → ℝ} {rf : ℝ} {v : ℕ}
    (hc : ∀ i, Added.usr i ∈ cfg.cons → Scalable upar (U.con i)) {k : ℝ} (hk : 0 < k) (w : Fin n → ℝ) (u : ℕ → ℝ)
    {x : ℕ → ℕ → ℝ} (hx : x v 0 = k) :
    (sharpeProb U cfg cov mu rf v upar).feas ⟨k • w, k • u, x⟩ ↔
      Admissible U cfg upar false w u ∧ (w ⬝ᵥ mu - rf) * k = 1 := by
  have e1 : ∑ i, (k • w) i = k * ∑ i, w i := by
    rw [Finset.mul_sum]; rfl
  have e2 : ∑ i, (mu i - rf) * (k • w) i = (w ⬝ᵥ mu - rf * ∑ i, w i) * k := by
    rw [dotProduct, Finset.mul_sum, ← Finset.sum_sub_distrib, Finset.sum_mul]
    refine Finset.sum_congr rfl fun i _ => ?_
    show (mu i - rf) * (k * w i) = _
    ring
  have e3 : (∑ i, (k • w) i = k) ↔ ∑ i, w i = 1 := by
    rw [e1]
    constructor
    · intro h
      exact mul_left_cancel₀ hk.ne' (by rw [h, mul_one])
    · intro h; rw [h, mul_one]
  have e4 : (∀ i, cfg.lb i * (k : EReal) ≤ (((k • w) i : ℝ) : EReal) ∧ (((k • w) i : ℝ) : EReal) ≤ cfg.ub i * (k : EReal)) ↔
      Within cfg false w := by
    simp only [Within, Bool.false_eq_true, false_and, if_false]
    refine forall_congr' fun i => ?_
    have : (((k • w) i : ℝ) : EReal) = (w i : EReal) * (k : EReal) := by
      rw [← EReal.coe_mul, mul_comm]; rfl
    rw [this, mul_pos_le hk, mul_pos_le hk]
  have e5 : (∀ a ∈ cfg.cons, a.scaled U upar k ⟨k • w, k • u, x⟩) ↔
      ∀ a ∈ cfg.cons, a.holds U upar ⟨w, u, fun _ _ => 0⟩ :=
    forall₂_congr fun a ha => scaled_iff (fun i hi => hc i (hi ▸ ha)) hk w u _ _
  simp only [sharpeProb, hx, e2, e3, e4, e5]
  constructor
  · rintro ⟨h1, h2, -, h4, h5⟩
    rw [h2, mul_one] at h1
    exact ⟨⟨h4, h5, by rw [h2]; rfl⟩, h1⟩
  · rintro ⟨⟨h4, h5, h2⟩, h1⟩
    have h2 : ∑ i, w i = 1 := h2
    rw [h2, mul_one]
    exact ⟨h1, rfl, hk.le, h4, h5⟩

theorem vol_smul (cov : Matrix (Fin n) (Fin n) ℝ) {k : ℝ} (hk : 0 ≤ k) (w : Fin n → ℝ) :
    vol cov (k • w) = k * vol cov w := by
  unfold vol
  rw [mulVec_smul, smul_dotProduct, dotProduct_smul, smul_eq_mul, smul_eq_mul, ← mul_assoc,
    Real.sqrt_mul (mul_nonneg hk hk), Real.sqrt_mul_self hk]

/-- An optimum of the transformed problem gives a portfolio of largest Sharpe ratio. -/
theorem sharpe_opt {cov : Matrix (Fin n) (Fin n) ℝ} {mu : Fin n → ℝ} {rf : ℝ} {v : ℕ} (hobj : cfg.objs = [])
    (hlb : ∀ i, ∃ l : ℝ, cfg.lb i = l) (hc : ∀ i, Added.usr i ∈ cfg.cons → Scalable upar (U.con i)) {s : Asg n} {x : ℝ}
    (ho : IsOpt (sharpeProb U cfg cov mu rf v upar) s x) :
    0 < s.lib v 0 ∧ Admissible U cfg upar false (fun i => s.w i / s.lib v 0) (fun i => s.usr i / s.lib v 0) ∧
      rf < (fun i => s.w i / s.lib v 0) ⬝ᵥ mu ∧
      ∀ w' usr', Admissible U cfg upar false w' usr' →
        (w' ⬝ᵥ mu - rf) * vol cov (fun i => s.w i / s.lib v 0) ≤
          ((fun i => s.w i / s.lib v 0) ⬝ᵥ mu - rf) * vol cov w' := by
  have hobj' : ∀ s : Asg n, (sharpeProb U cfg cov mu rf v upar).obj s = ((s.w ⬝ᵥ cov *ᵥ s.w : ℝ) : EReal) := by
    intro s
    simp [sharpeProb, hobj]
  have hk : 0 < s.lib v 0 := by
    refine lt_of_le_of_ne ho.feas.2.2.1 fun h0 => ?_
    obtain ⟨f1, f2, -, f4, -⟩ := ho.feas
    rw [← h0] at f2 f4
    have hnn : ∀ i, 0 ≤ s.w i := by
      intro i
      obtain ⟨l, hl⟩ := hlb i
      have := (f4 i).1
      rw [hl, ← EReal.coe_mul, mul_zero] at this
      exact EReal.coe_le_coe_iff.1 this
    have hz : ∀ i, s.w i = 0 := fun i =>
      (Finset.sum_eq_zero_iff_of_nonneg (fun i _ => hnn i)).1 f2 i (Finset.mem_univ i)
    rw [Finset.sum_eq_zero (fun i _ => by rw [hz i, mul_zero])] at f1
    exact zero_ne_one f1
  let k := s.lib v 0
  let w : Fin n → ℝ := fun i => s.w i / k
  let u : ℕ → ℝ := fun i => s.usr i / k
  have ew : k • w = s.w := by
    funext i
    exact mul_div_cancel₀ (s.w i) hk.ne'
  have eu : k • u = s.usr := by
    funext i
    exact mul_div_cancel₀ (s.usr i) hk.ne'
  have es : (⟨k • w, k • u, s.lib⟩ : Asg n) = s := by rw [ew, eu]
  have hf := ho.feas
  rw [← es] at hf
  obtain ⟨hA, hr⟩ := (sharpe_feas hc hk w u rfl).1 hf
  have hpos : rf < w ⬝ᵥ mu := by
    by_contra h
    have : (w ⬝ᵥ mu - rf) * k ≤ 0 := mul_nonpos_of_nonpos_of_nonneg (by linarith) hk.le
    linarith
  refine ⟨hk, hA, hpos, fun w' u' hA' => ?_⟩
  show (w' ⬝ᵥ mu - rf) * vol cov w ≤ (w ⬝ᵥ mu - rf) * vol cov w'
  have hv : ∀ z, 0 ≤ vol cov z := fun z => Real.sqrt_nonneg _
  by_cases hr' : w' ⬝ᵥ mu - rf ≤ 0
  · exact (mul_nonpos_of_nonpos_of_nonneg hr' (hv w)).trans (mul_nonneg (by linarith) (hv w'))
  · rw [not_le] at hr'
    let k' := 1 / (w' ⬝ᵥ mu - rf)
    have hk' : 0 < k' := one_div_pos.2 hr'
    have hb := ho.best ⟨k' • w', k' • u', fun _ _ => k'⟩
      ((sharpe_feas hc hk' w' u' rfl).2 ⟨hA', mul_one_div_cancel hr'.ne'⟩)
    rw [hobj', hobj', EReal.coe_le_coe_iff, ← ew] at hb
    have hb : vol cov (k • w) ≤ vol cov (k' • w') := Real.sqrt_le_sqrt hb
    rw [vol_smul cov hk.le, vol_smul cov hk'.le] at hb
    have e1 : (w' ⬝ᵥ mu - rf) * k' = 1 := mul_one_div_cancel hr'.ne'
    have hp : 0 ≤ (w' ⬝ᵥ mu - rf) * (w ⬝ᵥ mu - rf) := mul_nonneg hr'.le (by linarith)
    calc (w' ⬝ᵥ mu - rf) * vol cov w = (w' ⬝ᵥ mu - rf) * (w ⬝ᵥ mu - rf) * (k * vol cov w) := by
          linear_combination -(w' ⬝ᵥ mu - rf) * vol cov w * hr
      _ ≤ (w' ⬝ᵥ mu - rf) * (w ⬝ᵥ mu - rf) * (k' * vol cov w') := mul_le_mul_of_nonneg_left hb hp
      _ = _ := by linear_combination (w ⬝ᵥ mu - rf) * vol cov w' * e1

/-- **C43** (part).  No objectives added, finite lower bounds, and each added constraint compares a positively
homogeneous expression with a constant: if `max_sharpe` returns weights from a correct solver answer, they are the
rounded weights of an admissible portfolio with positive excess return whose Sharpe ratio no admissible portfolio
exceeds. -/
theorem C43_max_sharpe_partial (hU : Usable U D) {W : World n} {j : ℕ} (hW : Reachable U S D W)
    (hj : W.objs[j]? = some (cfg, o)) (hobj : cfg.objs = []) (hlb : ∀ i, ∃ l : ℝ, cfg.lb i = l)
    (hc : ∀ i, Added.usr i ∈ cfg.cons → Scalable W.heap.upar (U.con i)) {rf : ℝ} {w : Fin n → ℝ}
    (hw : (run U S D (.maxSharpe rf) o W.heap).1 = .ok (some w))
    (hS : Correct S W.heap (run U S D (.maxSharpe rf) o W.heap).2.2) :
    ∃ mu s usr, D.mu = some mu ∧ Rounded w s ∧ Admissible U cfg W.heap.upar false s usr ∧ rf < s ⬝ᵥ mu ∧
      ∀ w' usr', Admissible U cfg W.heap.upar false w' usr' →
        (w' ⬝ᵥ mu - rf) * vol D.cov s ≤ (s ⬝ᵥ mu - rf) * vol D.cov w' ∧
        (0 < vol D.cov s → 0 < vol D.cov w' → (w' ⬝ᵥ mu - rf) / vol D.cov w' ≤ (s ⬝ᵥ mu - rf) / vol D.cov s) := by
  obtain ⟨-, pre, P, f, s, x, -, h2, h3, h4, h5⟩ :=
    C39_weights_documented_partial hU hW hj (c := .maxSharpe rf) nofun (.inr nofun) hw
  have hR := hS (W.heap.log ++ pre).length P (by rw [List.length_append]; exact Nat.le_add_right _ _)
    (by rw [h3]; simp)
  rw [h4] at hR
  cases h2 with
  | ask v q hq => cases hq
  | sharpe rf' mu v hcall hk hmu =>
    cases hcall
    obtain ⟨-, a2, a3, a4⟩ := sharpe_opt hobj hlb hc hR
    refine ⟨mu, fun i => s.w i / s.lib v 0, _, hmu, h5 ▸ round16_rounded _, a2, a3, fun w' usr' hA' => ⟨a4 w' usr' hA', ?_⟩⟩
    intro p1 p2
    rw [div_le_div_iff₀ p2 p1]
    exact a4 w' usr' hA'
  | convex i b b' hcall => cases hcall

end Verif.Convex
