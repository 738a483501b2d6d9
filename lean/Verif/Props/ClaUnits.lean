import Verif.Props.ClaPlot
import Verif.Spec.ClaUnits

/-! Property C70: the portfolios of a `CLA` object do not depend on the units of returns and covariances. -/

noncomputable section

namespace Verif.ClaObj
open Verif.Py Verif.Base Verif.Cla Verif.Perf

variable {n : ℕ} {inv : Cla.Inv ℝ} {fuel : ℕ} {a c : ℝ}

theorem inv_unique {m : ℕ} {A B C : Matrix (Fin m) (Fin m) ℝ} (h1 : ∀ i j, ∑ k, A i k * B k j = if i = j then 1 else 0)
    (h2 : ∀ i j, ∑ k, C i k * A k j = if i = j then 1 else 0) : C = B := by
  funext i j
  have e1 : ∑ k, C i k * ∑ l, A k l * B l j = C i j := by
    simp only [h1, mul_ite, mul_one, mul_zero]
    rw [Finset.sum_ite_eq' Finset.univ j (fun k => C i k)]
    simp
  have e2 : ∑ k, C i k * ∑ l, A k l * B l j = ∑ l, (∑ k, C i k * A k l) * B l j := by
    simp only [Finset.mul_sum, Finset.sum_mul]
    rw [Finset.sum_comm]
    simp only [mul_assoc]
  rw [← e1, e2]
  simp only [h2, ite_mul, one_mul, zero_mul]
  rw [Finset.sum_ite_eq Finset.univ i (fun l => B l j)]
  simp

theorem invRel_of (hs : inv.Sound) (hu : Unitless inv) (hc : 0 < c) : InvRel (RingHom.id ℝ) c inv inv := by
  intro m A
  have ht : times (RingHom.id ℝ) c A = fun i j => c * A i j := rfl
  rw [ht]
  cases hA : inv m A with
  | error e => exact hu m A e c hc hA
  | ok B =>
    cases hB : inv m (fun i j => c * A i j) with
    | error e =>
      have := hu m _ e c⁻¹ (inv_pos.2 hc) hB
      have hAA : (fun i j => c⁻¹ * (c * A i j)) = A := by
        funext i j
        rw [← mul_assoc, inv_mul_cancel₀ hc.ne', one_mul]
      rw [hAA, hA] at this
      cases this
    | ok B' =>
      refine congrArg Except.ok (inv_unique (A := fun i j => c * A i j) ?_ (hs m _ B' hB).2)
      intro i j
      rw [← (hs m A B hA).1 i j]
      refine Finset.sum_congr rfl fun k _ => ?_
      simp only [times, RingHom.id_apply]
      field_simp

theorem units_rel (p : Problem n ℝ) (ha : 0 < a) (hc : 0 < c) : Rel (RingHom.id ℝ) a c p (inUnits a c p) where
  mono := strictMono_id
  apos := ha
  cpos := hc
  mean := fun _ => rfl
  cov := fun _ _ => rfl
  lB := fun _ => rfl
  uB := fun _ => rfl
  store := fun _ => rfl

theorem lift_id (w : Fin n → ℝ) : lift (RingHom.id ℝ) w = w := rfl

/-- The object in other units. -/
def objIn (a c : ℝ) (o : Obj n) : Obj n where
  p := inUnits a c o.p
  s := o.s.lift (RingHom.id ℝ) a c
  weights := o.weights
  frontier := o.frontier.map (frontierIn a c)

theorem evalSr_units (p : Problem n ℝ) (ha : 0 < a) (hc : 0 < c) (w : Fin n → ℝ) :
    evalSr (inUnits a c p) w = a / Real.sqrt c * evalSr p w := by
  unfold evalSr
  have h1 := ret_rel (units_rel p ha hc) w
  have h2 := variance_rel (units_rel p ha hc) w
  rw [lift_id] at h1 h2
  rw [h1, h2, RingHom.id_apply, RingHom.id_apply, Real.sqrt_mul hc.le, mul_div_mul_comm]

theorem fsqrt_scaled (hc : 0 < c) (x : ℝ) : fsqrt (c * x) = scaled (Real.sqrt c) (fsqrt x) := by
  unfold fsqrt
  by_cases h : x < 0
  · rw [if_pos h, if_pos (mul_neg_of_pos_of_neg hc h)]; rfl
  · rw [if_neg h, if_neg (by rw [not_lt] at h ⊢; exact mul_nonneg hc.le h), Real.sqrt_mul hc.le]; rfl

theorem fdiv_scaled {b : ℝ} (ha : 0 < a) (hb : 0 < b) (x : ℝ) (y : Flt ℝ) :
    fdiv (a * x) (scaled b y) = scaled (a / b) (fdiv x y) := by
  cases y with
  | fin y =>
    simp only [scaled, fdiv]
    have h0 : b * y = 0 ↔ y = 0 := by rw [mul_eq_zero, or_iff_right hb.ne']
    have hx : a * x = 0 ↔ x = 0 := by rw [mul_eq_zero, or_iff_right ha.ne']
    have hp : 0 < a * x ↔ 0 < x := mul_pos_iff_of_pos_left ha
    simp only [h0, hx, hp]
    by_cases h : y = 0
    · simp only [h, if_true]
      by_cases h1 : x = 0
      · simp [h1]
      · by_cases h2 : 0 < x
        · simp [h1, h2]
        · simp [h1, h2]
    · simp only [h, if_false, mul_div_mul_comm]
  | nan => rfl
  | posInf => simp [scaled, fdiv]
  | negInf => simp [scaled, fdiv]

theorem frontierOf_units (p : Problem n ℝ) (ha : 0 < a) (hc : 0 < c) (ws : List (Fin n → ℝ)) :
    frontierOf (inUnits a c p) ws = frontierIn a c (frontierOf p ws) := by
  have h1 := fun w => ret_rel (units_rel p ha hc) w
  have h2 := fun w => variance_rel (units_rel p ha hc) w
  simp only [lift_id, RingHom.id_apply] at h1 h2
  simp only [frontierOf, frontierIn, List.map_map]
  refine congrArg₂ Prod.mk ?_ (congrArg₂ Prod.mk ?_ rfl)
  · exact List.map_congr_left fun w _ => h1 w
  · exact List.map_congr_left fun w _ => by rw [h2, fsqrt_scaled hc]; rfl

theorem quad_units (w : Fin n → ℝ) (S : Fin n → Fin n → ℝ) (q : ℝ)
    (h : quadForm (List.ofFn w) (List.ofFn fun i => List.ofFn (S i)) = .ok q) :
    quadForm (List.ofFn w) (List.ofFn fun i => List.ofFn fun j => c * S i j) = .ok (c * q) := by
  unfold quadForm at h ⊢
  rw [if_pos (by simp)] at h ⊢
  cases h
  refine congrArg Except.ok ?_
  simp only [List.map_ofFn, Function.comp_def, dot_ofFn, Finset.mul_sum]
  refine Finset.sum_congr rfl fun i _ => Finset.sum_congr rfl fun j _ => ?_
  ring

theorem matmul_units (w m : Fin n → ℝ) (q : ℝ) (h : matmul (List.ofFn w) (List.ofFn m) = .ok q) :
    matmul (List.ofFn w) (List.ofFn fun i => a * m i) = .ok (a * q) := by
  unfold matmul at h ⊢
  rw [if_pos (by simp)] at h ⊢
  cases h
  refine congrArg Except.ok ?_
  simp only [dot_ofFn, Finset.mul_sum]
  exact Finset.sum_congr rfl fun i _ => by ring

theorem performance_units (ha : 0 < a) (hc : 0 < c) (o : Obj n) (rf : ℝ) :
    (objIn a c o).performance (a * rf) = (o.performance rf).map (reportIn a c) := by
  unfold Obj.performance
  cases hw : o.weights with
  | none => rw [show (objIn a c o).weights = none from hw]; rfl
  | some w =>
    rw [show (objIn a c o).weights = some w from hw]
    obtain ⟨q, hq⟩ : ∃ q, quadForm (List.ofFn w) (List.ofFn fun i => List.ofFn (o.p.cov i)) = .ok q := by
      unfold quadForm; rw [if_pos (by simp)]; exact ⟨_, rfl⟩
    obtain ⟨r, hr⟩ : ∃ r, matmul (List.ofFn w) (List.ofFn o.p.mean) = .ok r := by
      unfold matmul; rw [if_pos (by simp)]; exact ⟨_, rfl⟩
    have hq' := quad_units (c := c) w o.p.cov q hq
    have hr' := matmul_units (a := a) w o.p.mean r hr
    have e1 : performance (κ := ℕ) id (.array (List.ofFn w)) (.array (List.ofFn o.p.mean))
        (.array (List.ofFn fun i => List.ofFn (o.p.cov i))) rf = .ok (some (.fin r), fsqrt q, some (fdiv (r - rf) (fsqrt q))) := by
      simp only [performance, weightVector, ReturnsArg.values, CovArg.rows, sharpe, bind, Except.bind, hq, hr]
      rfl
    have e2 : performance (κ := ℕ) id (.array (List.ofFn w)) (.array (List.ofFn (inUnits a c o.p).mean))
        (.array (List.ofFn fun i => List.ofFn ((inUnits a c o.p).cov i))) (a * rf) =
          .ok (some (.fin (a * r)), fsqrt (c * q), some (fdiv (a * r - a * rf) (fsqrt (c * q)))) := by
      simp only [performance, weightVector, ReturnsArg.values, CovArg.rows, sharpe, inUnits, bind, Except.bind, hq', hr']
      rfl
    dsimp only
    rw [e1, show (objIn a c o).p = inUnits a c o.p from rfl, e2, fsqrt_scaled hc, ← mul_sub,
      fdiv_scaled ha (Real.sqrt_pos.2 hc)]
    rfl

section run
variable (ha : 0 < a) (hc : 0 < c) (hi : InvRel (RingHom.id ℝ) c inv inv)
include ha hc hi

theorem maxSharpe_units (o : Obj n) : (objIn a c o).maxSharpe inv (evalSr (inUnits a c o.p)) fuel =
    (o.maxSharpe inv (evalSr o.p) fuel).map fun r => (objIn a c r.1, outIn a c r.2) := by
  have h := maxSharpe_rel (units_rel o.p ha hc) hi (k := a / Real.sqrt c) (div_pos ha (Real.sqrt_pos.2 hc))
    (sharpe := evalSr o.p) (sharpe' := evalSr (inUnits a c o.p)) (evalSr_units o.p ha hc) fuel o.s
  unfold Obj.maxSharpe
  rw [show (objIn a c o).p = inUnits a c o.p from rfl, show (objIn a c o).s = o.s.lift (RingHom.id ℝ) a c from rfl, h]
  rcases Cla.maxSharpe o.p inv (evalSr o.p) fuel o.s with _ | ⟨s, e | w⟩ <;> rfl

theorem minVolatility_units (o : Obj n) : (objIn a c o).minVolatility inv fuel =
    (o.minVolatility inv fuel).map fun r => (objIn a c r.1, outIn a c r.2) := by
  have h := minVolatility_rel (units_rel o.p ha hc) hi fuel o.s
  unfold Obj.minVolatility
  rw [show (objIn a c o).p = inUnits a c o.p from rfl, show (objIn a c o).s = o.s.lift (RingHom.id ℝ) a c from rfl, h]
  rcases Cla.minVolatility o.p inv fuel o.s with _ | ⟨s, e | w⟩ <;> rfl

theorem efficientFrontier_units (o : Obj n) (points : ℕ) : (objIn a c o).efficientFrontier inv fuel points =
    (o.efficientFrontier inv fuel points).map fun r => (objIn a c r.1, outIn a c r.2) := by
  have h := efficientFrontier_rel (units_rel o.p ha hc) hi fuel points o.s
  unfold Obj.efficientFrontier
  rw [show (objIn a c o).p = inUnits a c o.p from rfl, show (objIn a c o).s = o.s.lift (RingHom.id ℝ) a c from rfl, h]
  rcases Cla.efficientFrontier o.p inv fuel points o.s with _ | ⟨s, e | ws⟩
  · rfl
  · rfl
  · have hm : ws.map (lift (RingHom.id ℝ)) = ws := List.map_id ws
    simp only [Option.map_some, Except.map, hm, frontierOf_units o.p ha hc]
    rfl

theorem draw_units (o : Obj n) (points : ℕ) : (objIn a c o).draw inv fuel points =
    (o.draw inv fuel points).map fun r => (objIn a c r.1, outIn a c r.2) := by
  have hp := performance_units ha hc o 0
  rw [mul_zero] at hp
  have hassets : (List.ofFn fun i => (fsqrt ((objIn a c o).p.cov i i), (objIn a c o).p.mean i)) =
      (List.ofFn fun i => (fsqrt (o.p.cov i i), o.p.mean i)).map fun x => (scaled (Real.sqrt c) x.1, a * x.2) := by
    rw [List.map_ofFn]
    congr 1
    funext i
    simp only [objIn, inUnits, Function.comp, fsqrt_scaled hc]
  unfold Obj.draw
  rw [hp, hassets]
  cases o.performance 0 with
  | error e => rfl
  | ok r =>
    simp only [Except.map]
    cases hf : o.frontier with
    | some f => rw [show (objIn a c o).frontier = some (frontierIn a c f) by simp only [objIn, hf]; rfl]; rfl
    | none =>
      rw [show (objIn a c o).frontier = none by simp only [objIn, hf]; rfl]
      dsimp only
      rw [efficientFrontier_units ha hc hi]
      rcases o.efficientFrontier inv fuel points with _ | ⟨o₁, w | f | q | e⟩ <;> rfl

theorem run_units (o : Obj n) (x : Call) : (objIn a c o).run inv (evalSr (inUnits a c o.p)) fuel x =
    (o.run inv (evalSr o.p) fuel x).map fun r => (objIn a c r.1, outIn a c r.2) := by
  cases x with
  | maxSharpe => exact maxSharpe_units ha hc hi o
  | minVolatility => exact minVolatility_units ha hc hi o
  | efficientFrontier points => exact efficientFrontier_units ha hc hi o points
  | setWeights => rfl
  | plot points =>
    show (objIn a c o).plot inv _ fuel points = (o.plot inv _ fuel points).map _
    unfold Obj.plot
    cases hw : o.weights with
    | some w =>
      rw [show (objIn a c o).weights = some w from hw]
      exact draw_units ha hc hi o points
    | none =>
      rw [show (objIn a c o).weights = none from hw]
      dsimp only
      rw [maxSharpe_units ha hc hi]
      rcases o.maxSharpe inv (evalSr o.p) fuel with _ | ⟨o₁, w | f | q | e⟩
      · rfl
      · exact draw_units ha hc hi o₁ points
      · exact draw_units ha hc hi o₁ points
      · exact draw_units ha hc hi o₁ points
      · rfl

theorem runs_units (p : Problem n ℝ) (o : Obj n) (hp : o.p = p) (cs : List Call) :
    runs inv (evalSr (inUnits a c p)) fuel (objIn a c o) cs =
      (runs inv (evalSr p) fuel o cs).map fun r => (objIn a c r.1, r.2.map (outIn a c)) := by
  induction cs generalizing o with
  | nil => rfl
  | cons x cs ih =>
    have h := run_units (fuel := fuel) ha hc hi o x
    rw [hp] at h
    simp only [runs]
    rw [h]
    cases hr : o.run inv (evalSr p) fuel x with
    | none => rfl
    | some r =>
      obtain ⟨o₁, y⟩ := r
      have h1 := ih o₁ ((run_step hr).data.trans hp)
      simp only [Option.map_some, h1, Option.map_map]
      rfl

end run

/-- **C70**: with returns measured in units `a` times as small and covariances in units `c` times as small, any sequence of
calls on a `CLA` object gives the same weights and the same exceptions; the returns are multiplied by `a`, the volatilities
by `√c` and the Sharpe ratios by `a/√c`. -/
theorem C70_units (hs : inv.Sound) (hu : Unitless inv) (ha : 0 < a) (hc : 0 < c) (p : Problem n ℝ) (cs : List Call) :
    (runs inv (evalSr (inUnits a c p)) fuel (fresh (inUnits a c p)) cs).map Prod.snd =
      (runs inv (evalSr p) fuel (fresh p) cs).map fun r => r.2.map (outIn a c) := by
  have := runs_units (fuel := fuel) ha hc (invRel_of hs hu hc) p (fresh p) rfl cs
  rw [show fresh (inUnits a c p) = objIn a c (fresh p) from rfl, this, Option.map_map]
  rfl

/-- **C70** for the report, with the risk-free rate in the same unit as the returns. -/
theorem C70_performance (hs : inv.Sound) (hu : Unitless inv) (ha : 0 < a) (hc : 0 < c) (p : Problem n ℝ) (cs : List Call) (rf : ℝ) :
    (runs inv (evalSr (inUnits a c p)) fuel (fresh (inUnits a c p)) cs).map (fun r => r.1.performance (a * rf)) =
      (runs inv (evalSr p) fuel (fresh p) cs).map fun r => (r.1.performance rf).map (reportIn a c) := by
  have := runs_units (fuel := fuel) ha hc (invRel_of hs hu hc) p (fresh p) rfl cs
  rw [show fresh (inUnits a c p) = objIn a c (fresh p) from rfl, this, Option.map_map]
  cases runs inv (evalSr p) fuel (fresh p) cs with
  | none => rfl
  | some r => exact congrArg some (performance_units ha hc r.1 rf)

theorem smallInv_unitless : Unitless (smallInvOf ℝ) := by
  intro m A e c hc h
  have := smallInv_rel (RingHom.id ℝ) hc.ne' m A
  rw [h] at this
  exact this

/-- Not vacuous: the example in percent, where `min_volatility` finds the same portfolio. -/
example : ∃ o, runs (smallInvOf ℝ) (evalSr (inUnits 100 10000 p3.real)) 10 (fresh (inUnits 100 10000 p3.real)) [.minVolatility] =
    some (o, [.weights ![1/10, 0, 9/10]]) := by
  obtain ⟨o, h⟩ := p3_minVol
  have h' : runs (smallInvOf ℝ) (evalSr p3.real) 10 (fresh p3.real) [.minVolatility] = some (o, [.weights ![1/10, 0, 9/10]]) := by
    simp only [runs, Obj.run, h]
    rfl
  have := C70_units (fuel := 10) smallInvOf_sound smallInv_unitless (a := 100) (c := 10000) (by norm_num) (by norm_num)
    p3.real [.minVolatility]
  rw [h'] at this
  obtain ⟨⟨o', outs⟩, e, rfl⟩ := Option.map_eq_some_iff.1 this
  exact ⟨o', e⟩

end Verif.ClaObj
