import Verif.Props.Solution
import Verif.Proof.NoValueError
import Verif.Proof.ConvexExact

/-!
Properties C44 and C45: the checks of target volatilities and target returns.
-/

noncomputable section

namespace Verif.Convex
open Verif.Py Verif.Base Matrix

variable {n : ℕ} {U : Uni n} {S : Solver n} {D : Data n} {cfg : Cfg n} {o : OState n}

/-! ### C44 -/

section minvol
variable {cov P : Matrix (Fin n) (Fin n) ℝ}

theorem sum_eq_quad (x : Fin n → ℝ) (hx : cov *ᵥ x = fun _ => 1) (hs : cov.PosSemidef) (hP : cov * P * cov = cov) :
    ∑ i, ∑ j, P i j = x ⬝ᵥ cov *ᵥ x := by
  have hsym := Verif.Risk.psd_symm hs
  have e1 : ∑ i, ∑ j, P i j = (cov *ᵥ x) ⬝ᵥ P *ᵥ (cov *ᵥ x) := by
    rw [hx]
    simp [dotProduct, mulVec]
  rw [e1, mulVec_mulVec, dotProduct_comm, ← dot_symm hsym, ← mulVec_mulVec, mulVec_mulVec, mulVec_mulVec,
    hP]

/-- **C44**, the bound: if some combination `x` of assets has covariance 1 with every asset (true of
every regular covariance matrix), the square root of one over the sum of the entries of the pseudo-inverse is the
least volatility of all fully invested portfolios. -/
theorem C44_least_volatility (hs : cov.PosSemidef) (hP : IsPinv cov P) (hn : 0 < n)
    (h1 : ∃ x, cov *ᵥ x = fun _ => 1) :
    0 < ∑ i, ∑ j, P i j ∧
    IsLeast {σ | ∃ w : Fin n → ℝ, ∑ i, w i = 1 ∧ σ = vol cov w} (Real.sqrt (1 / ∑ i, ∑ j, P i j)) := by
  obtain ⟨x, hx⟩ := h1
  have hq := sum_eq_quad x hx hs hP.apa
  have hw : ∀ w : Fin n → ℝ, w ⬝ᵥ cov *ᵥ x = ∑ i, w i := by
    intro w; rw [hx]; simp [dotProduct]
  have key : ∀ w : Fin n → ℝ, ∑ i, w i = 1 → 1 ≤ (w ⬝ᵥ cov *ᵥ w) * ∑ i, ∑ j, P i j := by
    intro w h
    have := cauchy hs w x
    rw [hw, h, ← hq] at this
    linarith
  have hpos : 0 < ∑ i, ∑ j, P i j := by
    have h0 : 0 ≤ ∑ i, ∑ j, P i j := by rw [hq]; exact Verif.Risk.psd_nonneg hs x
    refine lt_of_le_of_ne h0 fun h => ?_
    have := key (Pi.single ⟨0, hn⟩ 1) (by simp)
    rw [← h] at this
    linarith
  refine ⟨hpos, ⟨(∑ i, ∑ j, P i j)⁻¹ • x, ?_, ?_⟩, ?_⟩
  · have hsum : ∑ i, x i = ∑ i, ∑ j, P i j := by rw [← hw, hq]
    simp only [Pi.smul_apply, smul_eq_mul]
    rw [← Finset.mul_sum, hsum, inv_mul_cancel₀ hpos.ne']
  · unfold vol
    rw [mulVec_smul, dotProduct_smul, smul_dotProduct, ← hq]
    congr 1
    simp only [smul_eq_mul]
    field_simp
  · rintro _ ⟨w, h, rfl⟩
    refine Real.sqrt_le_sqrt ?_
    rw [div_le_iff₀ hpos]
    exact key w h

end minvol

/-- **C44** (part), fully invested portfolios: a target below the volatility of every fully invested portfolio is
refused with ValueError by every object, nothing being changed; any other target is not: whatever the history of the
object, `efficient_risk` then raises no ValueError unless the solver does, and an object not solved before hands the
documented problem to the solver.  Left out, and false of the code: market neutrality (for `mn = true` the comparison
is with the fully invested portfolios as well), and covariance matrices for which no portfolio has equal covariances
with all assets. -/
theorem C44_achievable_partial (hU : Usable U D) (hk : D.kind = .ef) (hsym : D.symOk = true)
    (hs : D.cov.PosSemidef) (hP : IsPinv D.cov D.pinv) (hn : 0 < n) (h1 : ∃ x, D.cov *ᵥ x = fun _ => 1)
    {W : World n} (hW : Reachable U S D W) {j : ℕ} (hj : W.objs[j]? = some (cfg, o)) (t : ℝ) (mn : Bool) :
    ((∀ w : Fin n → ℝ, ∑ i, w i = 1 → t < vol D.cov w) →
      run U S D (.efficientRisk t mn) o W.heap = (.error .valueError, o, W.heap)) ∧
    ((∃ w : Fin n → ℝ, ∑ i, w i = 1 ∧ vol D.cov w ≤ t) →
      ((∀ k P, S k P ≠ .raised .valueError) →
        (run U S D (.efficientRisk t mn) o W.heap).1 ≠ .error .valueError) ∧
      (o.opt = none → D.mu.isSome = true →
        Passes U S D cfg (.efficientRisk t mn) W.heap (run U S D (.efficientRisk t mn) o W.heap))) := by
  obtain ⟨hpos, hmem, hle⟩ := C44_least_volatility hs hP hn h1
  have hg : globalMinVol D = .fin (Real.sqrt (1 / ∑ i, ∑ j, D.pinv i j)) := by
    unfold globalMinVol Perf.fdiv
    dsimp only
    rw [if_neg hpos.ne']
    dsimp only
    unfold Perf.fsqrt
    rw [if_neg (not_lt.2 (by positivity))]
  constructor
  · intro hall
    refine some_err (x := efficientRisk S D t mn) (by simp only [run, hk]) ?_
    unfold efficientRisk
    by_cases ht : t < 0
    · rw [if_pos ht]; rfl
    · rw [if_neg ht]
      obtain ⟨w, hw, e⟩ := hmem
      have : numLt t (globalMinVol D) := by rw [hg, e]; exact hall w hw
      rw [if_pos this]; rfl
  · rintro ⟨w, hw, hv⟩
    have ht : 0 ≤ t := (Real.sqrt_nonneg _).trans hv
    have hlt : ¬ numLt t (globalMinVol D) := by
      rw [hg]
      exact not_lt.2 ((hle ⟨w, hw, rfl⟩).trans hv)
    refine ⟨fun hS => ?_, fun ho hmu => ?_⟩
    · have hx : run U S D (.efficientRisk t mn) = (efficientRisk S D t mn >>= fun w => pure (some w)) := by
        simp only [run, hk]
      rw [hx, some_run]
      have : (efficientRisk S D t mn o W.heap).1 ≠ .error .valueError := by
        unfold efficientRisk
        rw [if_neg (not_lt.2 ht), if_neg hlt]
        have hB : NV Fine Set' (do
            let r ← returnExpr D true
            setObjective [] (fun e => (r e.asg : EReal))
            let v ← varianceExpr D
            addAll
            let p ← newPar "target_variance" (t ^ 2) true
            addLib (.ineq 1 (scalar v) (ofPar p))
            makeWeightSum mn) :=
          .bind (.returnExpr _) fun _ => .bind (.setObjective _ _) fun _ => .bind (.varianceExpr hsym) fun _ =>
            .bind .addAll fun _ => .bind (.newPar _ fun _ => sq_nonneg t) fun _ =>
            .bind (.addIneq _ _) fun _ => .makeWeightSum mn
        exact withParameter_noVE hU (by decide) (good_of_reachable hU hW _ (List.mem_of_getElem? hj)).1 hS hB
          (.inl (sq_nonneg t))
      intro h
      cases hr : (efficientRisk S D t mn o W.heap).1 with
      | error e => rw [hr] at h this; cases h; exact this rfl
      | ok a => rw [hr] at h; cases h
    · exact C39_first_call_reaches hU hW hj ho (c := .efficientRisk t mn) ⟨fun _ => hsym, hmu⟩
        (by simp only [Accepts, hk]; exact ⟨ht, hlt⟩) nofun

/-! ### C45 -/

theorem max_bound {upar : ℕ → ℝ} {mu : Fin n → ℝ} {s : Asg n} {v : ℝ} (ho : IsOpt (maxProb U cfg upar mu) s v)
    {w : Fin n → ℝ} {usr : ℕ → ℝ} (ha : Admissible U cfg upar false w usr) : w ⬝ᵥ mu ≤ -v := by
  have h1 := ho.best ⟨w, usr, fun _ _ => 0⟩ ⟨ha.within, ha.cons, ha.sum, trivial⟩
  rw [ho.value] at h1
  have h2 : (maxProb U cfg upar mu).obj ⟨w, usr, fun _ _ => 0⟩ = ((-(w ⬝ᵥ mu) : ℝ) : EReal) := by
    simp [maxProb, doc]
  rw [h2, EReal.coe_le_coe_iff] at h1
  linarith

theorem Admissible.prefix {upar : ℕ → ℝ} {mn : Bool} {w : Fin n → ℝ} {usr : ℕ → ℝ}
    (ha : Admissible U cfg upar mn w usr) {cons : List (Added n)} (hp : cons <+: cfg.cons) :
    Admissible U { cfg with cons := cons } upar mn w usr :=
  ⟨ha.within, fun x hx => ha.cons x (hp.subset hx), ha.sum⟩

/-- **C45** (part).  For every history, a right solver, and a target some fully invested admissible portfolio
reaches: `efficient_return` raises no ValueError (unless the solver does).  The object's constraints must not depend
on parameters if a largest return other than 0 has been cached; on objects solved before, the target must not be
negative.  Left out and false of the code: market neutrality, and parameters changed after the largest return was
cached. -/
theorem C45_achievable_partial (hU : Usable U D) (hk : D.kind = .ef) (hsym : D.symOk = true) {mu : Fin n → ℝ}
    (hmu : D.mu = some mu) (hR : ∀ k P, Right P (S k P)) (hS : ∀ k P, S k P ≠ .raised .valueError)
    {W : World n} (hW : Reachable U S D W) {j : ℕ} (hj : W.objs[j]? = some (cfg, o))
    (hpar : ParFree U cfg ∨ o.maxRet = none ∨ o.maxRet = some 0)
    {w : Fin n → ℝ} {usr : ℕ → ℝ} (ha : Admissible U cfg W.heap.upar false w usr) {t : ℝ} (ht : t ≤ w ⬝ᵥ mu)
    (h0 : 0 ≤ t ∨ o.opt = none) (mn : Bool) :
    (run U S D (.efficientReturn true t mn) o W.heap).1 ≠ .error .valueError := by
  obtain ⟨g, hm⟩ := good_of_reachable hU hW _ (List.mem_of_getElem? hj)
  have hx : run U S D (.efficientReturn true t mn) = (efficientReturn S D true t mn >>= fun w => pure (some w)) := by
    simp only [run, hk]
  rw [hx, some_run]
  have tail : ∀ (o' : OState n) (h' : Heap n), Good U D cfg o' h' → o'.opt = o.opt →
      checkMaxReturn S D t o W.heap = (.ok (), o', h') →
      (efficientReturn S D true t mn o W.heap).1 ≠ .error .valueError := by
    intro o' h' g' hopt e
    have hy : efficientReturn S D true t mn o W.heap = _ := bind_ok e
    rw [hy]
    have hB : NV Fine Set' (do
        let v ← varianceExpr D
        setObjective [] (fun e => (v e.asg : EReal))
        let r ← returnExpr D false
        addAll
        let p ← newPar "target_return" t false
        addLib (.ineq 1 (ofPar p) (scalar r))
        makeWeightSum mn) :=
      .bind (.varianceExpr hsym) fun _ => .bind (.setObjective _ _) fun _ => .bind (.returnExpr _) fun _ =>
        .bind .addAll fun _ => .bind (.newPar _ nofun) fun _ => .bind (.addIneq _ _) fun _ =>
        .makeWeightSum mn
    exact withParameter_noVE hU (by decide) g' hS hB (by rw [hopt]; exact h0)
  have stop : ∀ e (o' : OState n) (h' : Heap n), e ≠ PyErr.valueError →
      checkMaxReturn S D t o W.heap = (.error e, o', h') →
      (efficientReturn S D true t mn o W.heap).1 ≠ .error .valueError := by
    intro e o' h' he hc
    have hy : efficientReturn S D true t mn o W.heap = (.error e, o', h') := bind_err hc
    rw [hy]
    intro k
    cases k
    exact he rfl
  have key : (efficientReturn S D true t mn o W.heap).1 ≠ .error .valueError := by
    by_cases hc : Uncached o
    · rcases g with ⟨b, hob⟩ | ⟨p, s⟩
      · obtain ⟨h', k1, k2, k3, ⟨e, k4, k5⟩ | ⟨m, k4, k5⟩⟩ := checkMax_fresh (S := S) hU b hmu hc t
        · refine stop e _ _ ?_ k5
          rintro rfl
          have := hS W.heap.log.length (maxProb U cfg W.heap.upar mu)
          cases ha : S W.heap.log.length (maxProb U cfg W.heap.upar mu) with
          | optimal s v => rw [ha] at k4; cases k4
          | status s => rw [ha] at k4; cases k4
          | raised e => rw [ha] at k4 this; cases e <;> first | exact this rfl | cases k4
        · have hmt : ¬ m < t := by
            have := hR W.heap.log.length (maxProb U cfg W.heap.upar mu)
            cases hS' : S W.heap.log.length (maxProb U cfg W.heap.upar mu) with
            | optimal s v =>
              rw [hS'] at k4 this
              cases k4
              have := max_bound this ha
              exact not_lt.2 (ht.trans this)
            | status s => rw [hS'] at k4; cases k4
            | raised e => rw [hS'] at k4; cases e <;> cases k4
          rw [if_neg hmt] at k5
          exact tail _ _ ((Good.mono (.inl ⟨b, hob⟩) k2).maxRet (some m)) rfl k5
      · have ho : o.opt ≠ none := by rw [s.opt]; exact nofun
        obtain ⟨e, o', h', e1, -⟩ := maxReturn_solved (S := S) s
        have e2 : maxReturnOfCopy S D o W.heap = (.error e, o, h') := by
          unfold maxReturnOfCopy deepcopy
          rw [e1]
        have e3 : checkMaxReturn S D t o W.heap = (.error e, o, h') := by
          unfold checkMaxReturn
          rw [bind_ok (a := o) (o' := o) (h' := W.heap) rfl]
          cases hm : o.maxRet with
          | none => exact bind_err e2
          | some m => dsimp only; rw [if_pos (hc m hm)]; exact bind_err e2
        refine stop e _ _ ?_ e3
        rintro rfl
        have nv : NV (fun o : OState n => o.opt ≠ none) (fun _ => True) (maxReturn S D) := by
          unfold maxReturn
          rw [hmu]
          refine .bind (Q := fun o : OState n => o.opt ≠ none) (.returnExpr _) fun _ => .bind (Q := Set')
            (fun o h ho => NV.setObjective _ _ o h (.inl ho)) fun _ => .bind (Q := Set') (.addLib (sumCon 1) nofun _)
            fun _ => .bind (Q := Set') (fun _ _ hP => ⟨nofun, fun _ _ => hP⟩) fun k =>
            .bind (NV.solve hS) fun _ => fun o h _ => ⟨?_, fun _ _ => trivial⟩
          unfold negValue
          cases h.log[k]? with
          | none => exact nofun
          | some P =>
            dsimp only
            cases S k P <;> exact nofun
        have := (nv o W.heap ho).1
        rw [e1] at this
        exact this rfl
    · obtain ⟨m, hm1, hm0⟩ : ∃ m, o.maxRet = some m ∧ m ≠ 0 := by
        by_contra h
        exact hc fun m hm1 => by
          by_contra h'
          exact h ⟨m, hm1, h'⟩
      have hpar : ParFree U cfg := by
        refine hpar.resolve_right ?_
        rintro (h | h) <;> rw [h] at hm1 <;> cases hm1
        exact hm0 rfl
      obtain ⟨mu', k, upar, cons, s, v, e1, e2, e3, rfl⟩ := hm m hm1
      rw [hmu] at e1
      cases e1
      have hr := hR k (maxProb U { cfg with cons := cons } upar mu)
      rw [e3] at hr
      have ha' : Admissible U cfg upar false w usr :=
        ⟨ha.within, fun x hx => (hpar x hx _ _ _).1 (ha.cons x hx), ha.sum⟩
      have hle := max_bound hr (ha'.prefix e2)
      have e := checkMax_cached (S := S) (D := D) (h := W.heap) hm1 hm0 t
      rw [if_neg (not_lt.2 (ht.trans hle))] at e
      exact tail _ _ g rfl e
  intro h
  cases hr : (efficientReturn S D true t mn o W.heap).1 with
  | error e => rw [hr] at h key; cases h; exact key rfl
  | ok a => rw [hr] at h; cases h

end Verif.Convex
