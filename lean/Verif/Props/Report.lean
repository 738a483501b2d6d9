import Mathlib.LinearAlgebra.Matrix.PosDef
import Mathlib.Data.Real.StarOrdered
import Verif.Proof.ConvexExact
import Verif.Proof.Report

/-!
C76: what `EfficientFrontier.portfolio_performance` reports after any history of calls.
-/

noncomputable section

namespace Verif.Convex
open Verif.Py Verif.Base Matrix

variable {n : ℕ} {U : Uni n} {S : Solver n} {D : Data n} {es : List (Event n)} {o : OState n} {mu : Fin n → ℝ}

theorem getLast_filterMap_append {α β : Type} (f : α → Option β) (l : List α) (a : α) :
    ((l ++ [a]).filterMap f).getLast? = (f a).or (l.filterMap f).getLast? := by
  rw [List.filterMap_append, List.getLast?_append]
  cases h : f a <;> simp [h]

theorem Hist.stored (H : Hist U S D es o) : o.weights = lastPortfolio es ∧ o.rf = lastRate D es := by
  induction H with
  | new lb ub h => exact Still.mapBounds lb ub blank h
  | call H c h ih =>
    obtain ⟨k1, k2⟩ := run_stores (U := U) (S := S) (D := D) c _ h
    unfold lastPortfolio lastRate at *
    rw [getLast_filterMap_append, getLast_filterMap_append, ← ih.1, ← ih.2]
    exact ⟨k1, k2⟩

/-- Every world that some program leads to has a record. -/
theorem C76_traced {W : World n} (hW : Reachable U S D W) : ∃ T, Traced U S D W T ∧ T.length = W.objs.length := by
  induction hW with
  | new lb ub upar => exact ⟨_, .new lb ub upar, rfl⟩
  | step hW hs ih =>
    obtain ⟨T, hT, hl⟩ := ih
    cases hs with
    | @call i cfg o hi c =>
      have hi' : i < T.length := hl ▸ (List.getElem?_eq_some_iff.1 hi).1
      exact ⟨_, hT.call hi (List.getElem?_eq_getElem hi') c, by simp [hl]⟩
    | @copy i cfg o hi =>
      have hi' : i < T.length := hl ▸ (List.getElem?_eq_some_iff.1 hi).1
      exact ⟨_, hT.copy hi (List.getElem?_eq_getElem hi'), by simp [hl]⟩

/-- Whatever holds after every history of calls holds of every object and its record. -/
theorem C76_history {W : World n} {T : List (List (Event n))} (hT : Traced U S D W T) {j : ℕ} {cfg : Cfg n}
    (hj : W.objs[j]? = some (cfg, o)) (he : T[j]? = some es) : Hist U S D es o := by
  have hlen : ∀ {W : World n} {T : List (List (Event n))}, Traced U S D W T → T.length = W.objs.length := by
    intro W T hT
    induction hT with
    | new lb ub upar => rfl
    | call hT hj he c ih => simpa using ih
    | copy hT hj he ih => simpa using ih
  induction hT generalizing j cfg o es with
  | new lb ub upar =>
    rcases j with _ | j
    · obtain ⟨-, rfl⟩ : _ ∧ (mapBounds lb ub blank (heap₀ upar)).2.1 = o := by simpa [newWorld] using hj
      obtain rfl : [] = es := by simpa using he
      exact .new _ _ _
    · simp at he
  | @call W T i cfg' o' es' hT hi hei c ih =>
    rw [List.getElem?_set] at hj he
    split_ifs at hj with h1 h2
    · subst h1
      rw [if_pos rfl, if_pos (by rw [hlen hT]; exact h2)] at he
      obtain ⟨-, rfl⟩ : _ ∧ (run U S D c o' _).2.1 = o := by simpa using hj
      obtain rfl := Option.some.inj he
      exact (ih hi hei).call c _
    · rw [if_neg h1] at he
      exact ih hj he
  | @copy W T i cfg' o' es' hT hi hei ih =>
    rw [List.getElem?_append] at hj he
    rw [hlen hT] at he
    split_ifs at hj he with h1
    · exact ih hj he
    · have h2 : (cfg', o') = (cfg, o) ∧ es' = es := by
        rcases hm : j - W.objs.length with _ | m
        · rw [hm] at hj he; exact ⟨by simpa [deepcopy] using hj, by simpa using he⟩
        · rw [hm] at hj; simp at hj
      obtain ⟨h2, rfl⟩ := h2
      obtain ⟨-, rfl⟩ := Prod.mk.inj h2
      exact ih hi hei

theorem perf_eq (hp : D.cov.PosSemidef) (hmu : D.mu = some mu) {w : Fin n → ℝ} (hw : o.weights = some w) (r : ℝ) :
    efPerformance D r o = .ok (reportOf D.cov mu w (o.rf.getD r)) := by
  have h0 : ¬ w ⬝ᵥ D.cov *ᵥ w < 0 := not_lt.2 (by simpa using hp.dotProduct_mulVec_nonneg w)
  simp only [efPerformance, hw, hmu, Perf.fsqrt, if_neg h0, reportOf, Perf.fdiv]
  change Except.ok (some (w ⬝ᵥ mu), Flt.fin (vol D.cov w), some (if vol D.cov w = 0 then _ else _)) = _
  by_cases hv : vol D.cov w = 0
  · rw [if_pos hv, if_neg (not_not.2 hv)]
    simp only [sub_eq_zero, sub_pos]
  · rw [if_neg hv, if_pos hv]; rfl

/-- The report is on the portfolio shown last, returned by an optimisation or accepted by `set_weights`; before there is
one the method raises.  The Sharpe ratio is at the rate of the last `max_sharpe` whose rate lay below some asset's return,
whether or not that call found a portfolio and whatever has been shown since; only if there was none is it at the rate
given. -/
theorem C76_report (H : Hist U S D es o) (hp : D.cov.PosSemidef) (hmu : D.mu = some mu) (r : ℝ) :
    efPerformance D r o = match lastPortfolio es with
      | none => .error .valueError
      | some w => .ok (reportOf D.cov mu w ((lastRate D es).getD r)) := by
  obtain ⟨h1, h2⟩ := H.stored
  cases hw : lastPortfolio es with
  | none => simp only [efPerformance, h1, hw]
  | some w => dsimp only; rw [perf_eq hp hmu (h1.trans hw), h2]

/-- Without expected returns only the volatility is reported. -/
theorem C76_no_returns (H : Hist U S D es o) (hp : D.cov.PosSemidef) (hmu : D.mu = none) (r : ℝ) :
    efPerformance D r o = match lastPortfolio es with
      | none => .error .valueError
      | some w => .ok (none, .fin (vol D.cov w), none) := by
  obtain ⟨h1, -⟩ := H.stored
  cases hw : lastPortfolio es with
  | none => simp only [efPerformance, h1, hw]
  | some w =>
    have h0 : ¬ w ⬝ᵥ D.cov *ᵥ w < 0 := not_lt.2 (by simpa using hp.dotProduct_mulVec_nonneg w)
    simp only [efPerformance, h1.trans hw, hmu, Perf.fsqrt, if_neg h0, vol]

/-- The rate given is the one used, if every `max_sharpe` whose rate lay below some asset's return was called with it.
Missing: other histories (`C76_rate_false`). -/
theorem C76_rate_partial (H : Hist U S D es o) (hp : D.cov.PosSemidef) (hmu : D.mu = some mu) {r : ℝ}
    (hr : ∀ rf a, (Call.maxSharpe rf, a) ∈ es → (∃ i, rf < mu i) → rf = r) {w : Fin n → ℝ} (hw : lastPortfolio es = some w) :
    efPerformance D r o = .ok (reportOf D.cov mu w r) := by
  rw [C76_report H hp hmu, hw]
  have : (lastRate D es).getD r = r := by
    cases hl : lastRate D es with
    | none => rfl
    | some x =>
      obtain ⟨⟨c, a⟩, he, hx⟩ := List.mem_filterMap.1 (List.mem_of_getLast? hl)
      cases c with
      | maxSharpe rf =>
        unfold Event.rate at hx
        rw [hmu] at hx
        cases hk : D.kind with
        | ef =>
          rw [hk] at hx
          dsimp only at hx
          split_ifs at hx with h1
          · have : rf = x := by simpa using hx
            exact this ▸ hr rf a he h1
        | _ => rw [hk] at hx; simp at hx
      | _ => simp [Event.rate] at hx
  dsimp only
  rw [this]

/-! ### Cases -/

theorem ex_hist : Hist U S D [] (exO : OState n) := .new _ _ _

/-- A portfolio given to `set_weights` is reported at the rate of a `max_sharpe` made before, with any solver, whatever
that call returned: for two uncorrelated assets with volatility 1 and returns 30% and 10%, the first one alone has Sharpe
ratio 0.3 at the rate 0 asked for; 0.25, at the rate 5% of the earlier call, is reported. -/
theorem C76_rate_false {U : Uni 2} {S : Solver 2} (a : Except PyErr (Option (Fin 2 → ℝ))) (ha : a = (run U S (exD ![0.3, 0.1]) (.maxSharpe 0.05) exO
      (exW : World 2).heap).1) : ∃ o, Hist U S (exD ![0.3, 0.1]) [(.maxSharpe 0.05, a), (.setWeights (.ok ![1, 0]), .ok none)] o ∧
    efPerformance (exD ![0.3, 0.1]) 0 o = .ok (some 0.3, .fin 1, some (.fin 0.25)) ∧
    reportOf (exD ![0.3, 0.1]).cov ![0.3, 0.1] ![1, 0] 0 = (some 0.3, .fin 1, some (.fin 0.3)) := by
  have H := (((ex_hist (U := U) (S := S) (D := exD ![0.3, 0.1])).call (.maxSharpe 0.05) (exW : World 2).heap).call
    (.setWeights (.ok ![1, 0])) (exW : World 2).heap)
  rw [← ha] at H
  have H' : Hist U S (exD ![0.3, 0.1]) [(.maxSharpe 0.05, a), (.setWeights (.ok ![1, 0]), .ok none)] _ := H
  have hv : vol (exD (![0.3, 0.1] : Fin 2 → ℝ)).cov ![1, 0] = 1 := by
    simp [vol, exD, Matrix.one_mulVec]
  have hm : (![1, 0] : Fin 2 → ℝ) ⬝ᵥ ![0.3, 0.1] = 0.3 := by simp [dotProduct, Fin.sum_univ_two]
  refine ⟨_, H', ?_, ?_⟩
  · rw [C76_report H' PosSemidef.one rfl]
    have h1 : lastPortfolio [((.maxSharpe 0.05, a) : Event 2), (.setWeights (.ok ![1, 0]), .ok none)] = some ![1, 0] :=
      getLast_filterMap_append Event.portfolio [(.maxSharpe 0.05, a)] (.setWeights (.ok ![1, 0]), .ok none)
    have h2 : lastRate (exD ![0.3, 0.1]) [((.maxSharpe 0.05, a) : Event 2), (.setWeights (.ok ![1, 0]), .ok none)] =
        some 0.05 := by
      have : ∃ i, (0.05 : ℝ) < (![0.3, 0.1] : Fin 2 → ℝ) i := ⟨0, by norm_num⟩
      simp only [lastRate, List.filterMap_cons, Event.rate, exD, if_pos this, List.filterMap_nil, List.getLast?_singleton]
    rw [h1, h2]
    simp only [reportOf, hv, hm, Option.getD_some]
    norm_num
  · simp only [reportOf, hv, hm]
    norm_num

/-- Before any portfolio is shown there is no report. -/
example : efPerformance (exD ![0.3, 0.1]) 0 (exO : OState 2) = .error .valueError :=
  C76_report (U := exU) (S := fun _ _ => .status none) ex_hist PosSemidef.one rfl 0

/-- A history that meets `C76_rate_partial`: `set_weights`, then a refused `max_sharpe`. -/
example (S : Solver 2) : ∃ es o, Hist exU S (exD ![0.3, 0.1]) es o ∧ lastPortfolio es = some ![0.5, 0.5] ∧
    (∃ a, (Call.maxSharpe 0.4, a) ∈ es) ∧
    efPerformance (exD ![0.3, 0.1]) 0.1 o = .ok (reportOf 1 ![0.3, 0.1] ![0.5, 0.5] 0.1) := by
  have H := (((ex_hist (U := exU) (S := S) (D := exD ![0.3, 0.1])).call (.setWeights (.ok ![0.5, 0.5]))
    (exW : World 2).heap).call (.maxSharpe 0.4) (exW : World 2).heap)
  have hm : ∀ i, (![0.3, 0.1] : Fin 2 → ℝ) i ≤ 0.4 := by
    intro i; fin_cases i <;> norm_num
  have he : (run exU S (exD ![0.3, 0.1]) (.maxSharpe 0.4) (run exU S (exD ![0.3, 0.1]) (.setWeights (.ok ![0.5, 0.5])) exO
      (exW : World 2).heap).2.1 (exW : World 2).heap).1 = .error .valueError := by
    simp only [run, exD]
    rw [some_run]
    unfold maxSharpe
    dsimp only
    rw [if_pos hm]
    rfl
  rw [he] at H
  have hl : lastPortfolio [(((.setWeights (.ok ![0.5, 0.5]), .ok none)) : Event 2), (.maxSharpe 0.4, .error .valueError)] =
      some ![0.5, 0.5] := by simp [lastPortfolio, Event.portfolio, List.filterMap_cons]
  refine ⟨[(.setWeights (.ok ![0.5, 0.5]), .ok none), (.maxSharpe 0.4, .error .valueError)], _, H, hl,
    ⟨.error .valueError, by simp⟩, C76_rate_partial H PosSemidef.one rfl ?_ hl⟩
  intro rf a hmem hlt
  have : rf = 0.4 := by
    have hmem : (Call.maxSharpe rf, a) ∈ [(((.setWeights (.ok ![0.5, 0.5]), .ok none)) : Event 2),
      (.maxSharpe 0.4, .error .valueError)] := hmem
    simp at hmem
    exact hmem.1
  obtain ⟨i, hi⟩ := hlt
  exact absurd (this ▸ hi) (not_lt.2 (hm i))

end Verif.Convex
