import Verif.Proof.Limits
import Verif.Props.Spoiled
import Mathlib.Algebra.BigOperators.Fin

/-!
C79: `nonconvex_objective` asks scipy for the problem the caller describes, over the bounds of the constructor, and hands on
the point that comes back.
-/

noncomputable section

namespace Verif.Convex
open Verif.Py Verif.Base Matrix

variable {n : ℕ} {U : Uni n} {S : Solver n} {D : Data n} {α : Type}

/-- The model with the whole request is an instance of the one used in histories of calls (`Call.nonconvex`). -/
theorem nonconvexCall_eq (minimize : Request n α → Except PyErr (ScipyResult n))
    (f : (Fin n → ℝ) → List α → Except PyErr ℝ) (args : ArgsGiven α) (b : Bool) (cons : Option (List (ScipyCon n)))
    (solver : String) (guess : Option (Fin n → ℝ)) :
    nonconvexCall minimize f args b cons solver guess = nonconvexObjective (fun lb ub b => do
      let q ← scipyRequest lb ub f args b cons solver guess
      let r ← minimize q
      .ok r.x) b := by
  funext o h
  unfold nonconvexCall nonconvexObjective
  rw [bind_ok (a := o) (o' := o) (h' := h) rfl, bind_ok (a := o) (o' := o) (h' := h) rfl]
  dsimp only
  cases hq : scipyRequest o.lb o.ub f args b cons solver guess with
  | error e => rfl
  | ok q =>
    rw [bind_ok (a := q) (o' := o) (h' := h) rfl]
    show (lift (minimize q) >>= _) o h = (lift (minimize q >>= fun r => Except.ok r.x) >>= _) o h
    cases hr : minimize q <;> rfl

theorem box_iff (tol : ℝ) (lb ub : Fin n → EReal) (w : Fin n → ℝ) :
    (∀ p ∈ (List.ofFn fun i => (lb i, ub i)).zip (List.ofFn w), p.1.1 ≤ ((p.2 + tol : ℝ) : EReal) ∧
      ((p.2 - tol : ℝ) : EReal) ≤ p.1.2) ↔ Box tol lb ub w := by
  have e : (List.ofFn fun i => (lb i, ub i)).zip (List.ofFn w) = List.ofFn fun i => ((lb i, ub i), w i) := by
    apply List.ext_getElem <;> simp
  rw [e]
  simp only [List.mem_ofFn, Box]
  constructor
  · exact fun k i => k _ ⟨i, rfl⟩
  · rintro k p ⟨i, rfl⟩
    exact k i

theorem request_asks {lb ub : Fin n → EReal} (f : (Fin n → ℝ) → List α → Except PyErr ℝ) (args : ArgsGiven α) (b : Bool)
    (cons : Option (List (ScipyCon n))) (solver : String) {guess : Option (Fin n → ℝ)} (hg : guess ≠ none ∨ n ≠ 0) :
    ∃ q, scipyRequest lb ub f args b cons solver guess = .ok q ∧ AsksScipy q lb ub f args b cons solver guess := by
  obtain ⟨x0, hx, h1, h2⟩ : ∃ x0, initialGuess guess = .ok x0 ∧
      (∀ g, guess = some g → x0 = g) ∧ (guess = none → ∑ i, x0 i = 1 ∧ ∀ i j, x0 i = x0 j) := by
    cases guess with
    | some g => exact ⟨g, rfl, fun g' e => Option.some.inj e, nofun⟩
    | none =>
      have hn : n ≠ 0 := hg.resolve_left fun k => k rfl
      refine ⟨fun _ => 1 / (n : ℝ), if_neg hn, nofun, fun _ => ⟨?_, fun _ _ => rfl⟩⟩
      have : (n : ℝ) ≠ 0 := Nat.cast_ne_zero.2 hn
      simp [this]
  refine ⟨⟨f, x0, args.toTuple, solver, List.ofFn fun i => (lb i, ub i), finalConstraints b cons⟩, ?_, ?_⟩
  · unfold scipyRequest
    rw [hx]
    rfl
  refine ⟨fun tol w => ?_, ?_, ?_, rfl, h1, h2⟩
  · unfold Request.Feasible
    rw [box_iff]
    simp only [List.length_ofFn, true_and, ScipyCon.Holds, finalConstraints]
    refine and_congr_right fun _ => ?_
    cases cons <;> cases b <;> simp
  · rintro l rfl w; rfl
  · rintro a rfl w; rfl

theorem nonconvexCall_run {o : OState n} {h : Heap n} {f : (Fin n → ℝ) → List α → Except PyErr ℝ} {args : ArgsGiven α} {b : Bool}
    {cons : Option (List (ScipyCon n))} {solver : String} {guess : Option (Fin n → ℝ)} {q : Request n α}
    (hq : scipyRequest o.lb o.ub f args b cons solver guess = .ok q)
    (minimize : Request n α → Except PyErr (ScipyResult n)) :
    nonconvexCall minimize f args b cons solver guess o h =
      match minimize q with
      | .ok r => (.ok r.x, { o with weights := some r.x }, h)
      | .error e => (.error e, o, h) := by
  unfold nonconvexCall
  rw [bind_ok (a := o) (o' := o) (h' := h) rfl, hq, bind_ok (a := q) (o' := o) (h' := h) rfl]
  cases minimize q <;> rfl

/-- **C79, the request and the answer (partial).** Unless a market-neutral portfolio has been asked for earlier (or some
lower bound is negative, so that this makes no difference), scipy is asked to minimise the given objective, called with the
weights and the entries of the argument tuple, within the bounds given to the constructor, subject to the given constraints
and, if wanted, weights summing to one; starting from the given weights or from equal weights.  Whatever point it ends at is
returned and becomes the object's portfolio; if it raises, so does the call, and nothing changes.
Missing: the case of an earlier market-neutral request, for which the claim is false. -/
theorem C79_request_partial {W : World n} {T : List (List (Event n))} (hT : Traced U S D W T) {j : ℕ}
    {cfg : Cfg n} {o : OState n} {es : List (Event n)} (hj : W.objs[j]? = some (cfg, o)) (he : T[j]? = some es)
    (hb : (∃ i, cfg.lb i < 0) ∨ ∀ e ∈ es, ¬ WantsNeutral e.1) (f : (Fin n → ℝ) → List α → Except PyErr ℝ)
    (args : ArgsGiven α) (b : Bool) (cons : Option (List (ScipyCon n))) (solver : String) {guess : Option (Fin n → ℝ)}
    (hg : guess ≠ none ∨ n ≠ 0) :
    ∃ q, AsksScipy q cfg.lb cfg.ub f args b cons solver guess ∧ ∀ minimize : Request n α → Except PyErr (ScipyResult n),
      nonconvexCall minimize f args b cons solver guess o W.heap =
        match minimize q with
        | .ok r => (.ok r.x, { o with weights := some r.x }, W.heap)
        | .error e => (.error e, o, W.heap) := by
  have k : o.lb = cfg.lb ∧ o.ub = cfg.ub := by
    rcases hT.bounds hj he with k | ⟨⟨e, h1, h2⟩, h3, -⟩
    · exact k
    · rcases hb with ⟨i, hi⟩ | hb
      · exact absurd (h3 i) (not_le.2 hi)
      · exact absurd h2 (hb e h1)
  obtain ⟨q, h1, h2⟩ := request_asks (lb := cfg.lb) (ub := cfg.ub) f args b cons solver hg
  exact ⟨q, h2, nonconvexCall_run (by rw [k.1, k.2]; exact h1)⟩

/-- **C79, the weights (partial).** If scipy reports success and keeps its word up to a tolerance, then up to this tolerance
the returned weights lie within the bounds of the constructor, satisfy the given constraints and, if wanted, sum to one.
Missing: as in `C79_request_partial`; and scipy's reports are a hypothesis, since the code does not look at them. -/
theorem C79_weights_partial {W : World n} {T : List (List (Event n))} (hT : Traced U S D W T) {j : ℕ}
    {cfg : Cfg n} {o : OState n} {es : List (Event n)} (hj : W.objs[j]? = some (cfg, o)) (he : T[j]? = some es)
    (hb : (∃ i, cfg.lb i < 0) ∨ ∀ e ∈ es, ¬ WantsNeutral e.1) {f : (Fin n → ℝ) → List α → Except PyErr ℝ}
    {args : ArgsGiven α} {b : Bool} {cons : Option (List (ScipyCon n))} {solver : String} {guess : Option (Fin n → ℝ)}
    {tol : ℝ} {minimize : Request n α → Except PyErr (ScipyResult n)} (hv : Vouches tol minimize)
    (hs : ∀ q r, minimize q = .ok r → r.success = true) {w : Fin n → ℝ}
    (hw : (nonconvexCall minimize f args b cons solver guess o W.heap).1 = .ok w) :
    Box tol cfg.lb cfg.ub w ∧ (b = true → |∑ i, w i - 1| ≤ tol) ∧ ∀ l, cons = some l → ∀ c ∈ l, c.Holds tol w := by
  have hg : guess ≠ none ∨ n ≠ 0 := by
    by_contra hg
    push Not at hg
    obtain ⟨rfl, hn⟩ := hg
    have : scipyRequest o.lb o.ub f args b cons solver none = .error .zeroDivision := by
      unfold scipyRequest initialGuess
      rw [if_pos hn]
      rfl
    unfold nonconvexCall at hw
    rw [bind_ok (a := o) (o' := o) (h' := W.heap) rfl, this] at hw
    cases hw
  obtain ⟨q, h1, h2⟩ := C79_request_partial hT hj he hb f args b cons solver hg
  rw [h2 minimize] at hw
  cases hm : minimize q with
  | error e => rw [hm] at hw; cases hw
  | ok r =>
    rw [hm] at hw
    obtain rfl : r.x = w := Except.ok.inj hw
    exact (h1.feasible tol r.x).1 (hv q r hm (hs q r hm))

theorem Traced.fresh {W : World n} {T : List (List (Event n))} (hT : Traced U S D W T) {j : ℕ} {cfg : Cfg n} {o : OState n}
    (hj : W.objs[j]? = some (cfg, o)) (he : T[j]? = some []) : o.opt = none := by
  refine Traced.always (P := fun _ o es => es = [] → o.opt = none) ?_ ?_ hT hj he rfl
  · exact fun _ _ _ _ => rfl
  · intro W T j cfg o es c _ _ _ _ h
    simp at h

theorem Traced.last (hU : Usable U D) {W : World n} {T : List (List (Event n))} (hT : Traced U S D W T) {j : ℕ} {cfg : Cfg n}
    {o : OState n} {es : List (Event n)} (hj : W.objs[j]? = some (cfg, o)) (he : T[j]? = some es) {es' : List (Event n)}
    {c₀ : Call n} {w : Fin n → ℝ} (hl : es = es' ++ [(c₀, .ok (some w))]) (hc : Optimises c₀ ∨ ∃ r b, c₀ = .convex r b) :
    ∃ p, After D c₀ o p := by
  refine Traced.invariant (P := fun o _ es => ∀ es' c₀ w, es = es' ++ [(c₀, .ok (some w))] →
    (Optimises c₀ ∨ ∃ r b, c₀ = .convex r b) → ∃ p, After D c₀ o p) hU ?_ ?_ ?_ hT hj he es' c₀ w hl hc
  · rintro o h es' c₀ w hl
    simp at hl
  · exact fun h _ => h
  · rintro cfg o h es c g hm - es' c₀ w hl hc
    obtain ⟨-, hl⟩ := List.append_inj' hl rfl
    obtain ⟨rfl, hr⟩ := Prod.mk.inj (List.singleton_inj.1 hl)
    obtain ⟨p, a, -⟩ := found_after hU g hm hc hr
    exact ⟨p, a⟩

theorem Traced.amended (hU : Usable U D) (hk : D.kind = .ef) {W : World n} {T : List (List (Event n))}
    (hT : Traced U S D W T) {j : ℕ} {cfg : Cfg n} {o : OState n} {es : List (Event n)} (hj : W.objs[j]? = some (cfg, o))
    (he : T[j]? = some es) (hp : ∀ i, 0 ≤ cfg.lb i) {es₁ es₂ : List (Event n)} {r : ℝ} {x : Except PyErr (Option (Fin n → ℝ))}
    (hl : es = es₁ ++ (.maxUtility r true, x) :: es₂) (hr : Offered D (.maxUtility r true)) (h1 : Elsewise es₁) :
    (o.lb = fun _ => -1) ∧ o.ub = fun _ => 1 := by
  refine Traced.always (P := fun cfg o es => (∀ i, 0 ≤ cfg.lb i) → ∀ es₁ es₂ r x, es = es₁ ++ (.maxUtility r true, x) :: es₂ →
    Offered D (.maxUtility r true) → Elsewise es₁ → (o.lb = fun _ => -1) ∧ o.ub = fun _ => 1) ?_ ?_ hT hj he hp es₁ es₂ r x hl hr h1
  · intro lb ub h _ es₁ es₂ r x e
    simp at e
  · clear! W T j cfg o es es₁ es₂ r x
    intro W T j cfg o es c hT hj he ih hp es₁ es₂ r x hl hr h1
    rw [(cfg.after_bounds _ c).1] at hp
    have keep : (o.lb = fun _ => -1) ∧ (o.ub = fun _ => 1) →
        ((run U S D c o W.heap).2.1.lb = fun _ => -1) ∧ (run U S D c o W.heap).2.1.ub = fun _ => 1 := by
      rintro ⟨k1, k2⟩
      rcases lim_run (U := U) (S := S) (D := D) c o W.heap with ⟨e1, e2⟩ | ⟨-, -, e3⟩
      · exact ⟨e1.trans k1, e2.trans k2⟩
      · exact e3
    rcases List.eq_nil_or_concat es₂ with rfl | ⟨es₃, y, rfl⟩
    · obtain ⟨rfl, hx⟩ := List.append_inj' hl rfl
      obtain ⟨rfl, -⟩ := Prod.mk.inj (List.singleton_inj.1 hx)
      rcases hT.bounds hj he with ⟨k1, -⟩ | ⟨-, -, k⟩
      swap
      · exact keep k
      obtain ⟨g, -⟩ := good_of_reachable hU hT.reachable _ (List.mem_of_getElem? hj)
      have hpn : pname D.kind (.maxUtility r true : Call n) = some "risk_aversion" := by simp [pname, hk]
      refine amends_maxUtility hk hr (by rw [k1]; exact hp) ?_
      rcases h1 with rfl | ⟨es', c₀, w, rfl, hc, hne⟩
      · exact isDefined_fresh hU g (hT.fresh hj he) (pname_mem hpn)
      · obtain ⟨p, a⟩ := hT.last hU hj he rfl hc
        refine isDefined_after a g (c := .maxUtility r true) ?_ hpn
        cases c₀ with
        | maxUtility r mn => exact absurd rfl (hne r mn)
        | _ => exact id
    · refine keep (ih hp es₁ es₃ r x ?_ hr h1)
      have : es ++ [(c, (run U S D c o W.heap).1)] = (es₁ ++ (.maxUtility r true, x) :: es₃) ++ [y] := by
        rw [hl]; simp
      exact (List.append_inj' this rfl).1

/-- **C79 fails after a market-neutral request: the bounds are no longer the constructor's.** An `EfficientFrontier` object
without negative lower bounds, at that time new or last optimised by another method, has been asked for a market-neutral
portfolio by `max_quadratic_utility`, and has answered or refused.  Ever since, `nonconvex_objective` asks scipy for weights
between -1 and 1. -/
theorem C79_bounds_false (hU : Usable U D) (hk : D.kind = .ef) {W : World n} {T : List (List (Event n))}
    (hT : Traced U S D W T) {j : ℕ} {cfg : Cfg n} {o : OState n} {es : List (Event n)} (hj : W.objs[j]? = some (cfg, o))
    (he : T[j]? = some es) (hp : ∀ i, 0 ≤ cfg.lb i) {es₁ es₂ : List (Event n)} {r : ℝ} {x : Except PyErr (Option (Fin n → ℝ))}
    (hl : es = es₁ ++ (.maxUtility r true, x) :: es₂) (hr : Offered D (.maxUtility r true)) (h1 : Elsewise es₁)
    (f : (Fin n → ℝ) → List α → Except PyErr ℝ) (args : ArgsGiven α) (b : Bool) (cons : Option (List (ScipyCon n)))
    (solver : String) {guess : Option (Fin n → ℝ)} (hg : guess ≠ none ∨ n ≠ 0) :
    ∃ q, AsksScipy q (fun _ => -1) (fun _ => 1) f args b cons solver guess ∧
      ∀ minimize : Request n α → Except PyErr (ScipyResult n),
        nonconvexCall minimize f args b cons solver guess o W.heap =
          match minimize q with
          | .ok r => (.ok r.x, { o with weights := some r.x }, W.heap)
          | .error e => (.error e, o, W.heap) := by
  have k := hT.amended hU hk hj he hp hl hr h1
  obtain ⟨q, h1, h2⟩ := request_asks (lb := fun _ => -1) (ub := fun _ => 1) f args b cons solver hg
  exact ⟨q, h2, nonconvexCall_run (by rw [k.1, k.2]; exact h1)⟩

/-- **C79 fails: scipy's report is ignored.** If scipy gives up at `x`, whatever `x` is, the call returns `x` as if it were
a solution. -/
theorem C79_success_false (o : OState n) (h : Heap n) (x : Fin n → ℝ) (f : (Fin n → ℝ) → List α → Except PyErr ℝ)
    (args : ArgsGiven α) (b : Bool) (cons : Option (List (ScipyCon n))) (solver : String) {guess : Option (Fin n → ℝ)}
    (hg : guess ≠ none ∨ n ≠ 0) :
    nonconvexCall (fun _ => .ok ⟨x, false⟩) f args b cons solver guess o h = (.ok x, { o with weights := some x }, h) := by
  obtain ⟨q, h1, -⟩ := request_asks (lb := o.lb) (ub := o.ub) f args b cons solver hg
  exact nonconvexCall_run h1 _

/-! ### Cases -/

theorem exists_flawless : ∃ minimize : Request n α → Except PyErr (ScipyResult n), Flawless minimize ∧ Vouches 0 minimize ∧
    ∀ q r, minimize q = .ok r → r.success = true := by
  classical
  refine ⟨fun q => if k : ∃ w c, q.Feasible 0 w ∧ q.cost w = .ok c ∧
    ∀ w' c', q.Feasible 0 w' → q.cost w' = .ok c' → c ≤ c' then .ok ⟨k.choose, true⟩ else .error .valueError, fun q k => ?_, fun q r h _ => ?_, fun q r h => ?_⟩
  · obtain ⟨c, h1, h2, h3⟩ := k.choose_spec
    exact ⟨k.choose, c, dif_pos k, h1, h2, h3⟩
  · dsimp only at h
    split_ifs at h with k
    obtain rfl := Except.ok.inj h
    exact k.choose_spec.choose_spec.1
  · dsimp only at h
    split_ifs at h
    obtain rfl := Except.ok.inj h
    rfl

/-- The least weight of the first asset, when the weights lie between `l` and 1 and sum to one. -/
theorem least_first {q : Request 3 α} {lb : Fin 3 → EReal} {l : ℝ} {args : ArgsGiven α} {solver : String}
    {guess : Option (Fin 3 → ℝ)} (hlb : lb = fun _ => (l : EReal))
    (hq : AsksScipy q lb (fun _ => 1) (fun w _ => .ok (w 0)) args true none solver guess)
    {minimize : Request 3 α → Except PyErr (ScipyResult 3)} (hf : Flawless minimize) {w₀ : Fin 3 → ℝ} (h0 : w₀ 0 = max l (-1))
    (h1 : ∀ i, l ≤ w₀ i ∧ w₀ i ≤ 1) (h2 : ∑ i, w₀ i = 1) : ∃ w, minimize q = .ok ⟨w, true⟩ ∧ w 0 = max l (-1) := by
  have hc : ∀ w, q.cost w = .ok (w 0) := by
    intro w
    cases args with
    | tuple a => exact hq.tuple a rfl w
    | other a => exact hq.other a rfl w
  have hfe : ∀ w, q.Feasible 0 w ↔ (∀ i, l ≤ w i ∧ w i ≤ 1) ∧ ∑ i, w i = 1 := by
    intro w
    rw [hq.feasible 0 w, hlb]
    simp only [Box, add_zero, sub_zero, EReal.coe_le_coe_iff, reduceCtorEq, false_implies, implies_true, and_true,
      forall_const, abs_nonpos_iff, sub_eq_zero]
    norm_cast
  have hlow : ∀ w, q.Feasible 0 w → max l (-1) ≤ w 0 := by
    intro w hw
    obtain ⟨k1, k2⟩ := (hfe w).1 hw
    rw [Fin.sum_univ_three] at k2
    exact max_le (k1 0).1 (by linarith [(k1 1).2, (k1 2).2])
  obtain ⟨w, c, h3, h4, h5, h6⟩ := hf q ⟨w₀, _, (hfe w₀).2 ⟨h1, h2⟩, hc w₀, fun w' c' k1 k2 => by
    rw [hc] at k2
    cases k2
    rw [h0]
    exact hlow w' k1⟩
  refine ⟨w, h3, le_antisymm ?_ (hlow w h4)⟩
  have := h6 w₀ _ ((hfe w₀).2 ⟨h1, h2⟩) (hc w₀)
  rw [hc] at h5
  cases h5
  rwa [h0] at this

/-- A new long-only object of three assets and a flawless scipy: the least possible weight of the first asset is 0. -/
example {minimize : Request 3 ℕ → Except PyErr (ScipyResult 3)} (hf : Flawless minimize) :
    ∃ w, (nonconvexCall minimize (fun w _ => .ok (w 0)) (.other 0) true none "SLSQP" none exO (exW : World 3).heap).1 = .ok w ∧
      w 0 = 0 ∧ (Vouches 0 minimize → (∀ q r, minimize q = .ok r → r.success = true) → Box 0 exCfg.lb exCfg.ub w) := by
  have hT : Traced exU (fun _ _ => .status .none) (exD ![0, 0, 0]) (exW : World 3) [[]] := .new _ _ _
  obtain ⟨q, h1, h2⟩ := C79_request_partial hT (j := 0) exW_get rfl (.inr nofun) (fun w _ => .ok (w 0)) (.other 0) true none
    "SLSQP" (guess := none) (.inr three_ne_zero)
  obtain ⟨w, h3, h4⟩ := least_first (l := 0) rfl h1 hf (w₀ := ![0, 1, 0]) (by simp) (by intro i; fin_cases i <;> simp)
    (by simp [Fin.sum_univ_three])
  have h5 : (nonconvexCall minimize (fun w _ => .ok (w 0)) (.other 0) true none "SLSQP" none exO (exW : World 3).heap).1 =
    .ok w := by rw [h2, h3]
  exact ⟨w, h5, by simpa using h4, fun hv hs => (C79_weights_partial hT (j := 0) exW_get rfl (.inr nofun) hv hs h5).1⟩

/-- The same object after a market-neutral request, also if that was refused: the first asset is sold short, to -1. -/
theorem C79_short_false {S : Solver 3} {minimize : Request 3 ℕ → Except PyErr (ScipyResult 3)} (hf : Flawless minimize) :
    let r := run exU S (exD ![0, 0, 0]) (.maxUtility 1 true) exO (exW : World 3).heap
    ∃ w, (nonconvexCall minimize (fun w _ => .ok (w 0)) (.other 0) true none "SLSQP" none r.2.1 r.2.2).1 = .ok w ∧
      w 0 = -1 := by
  intro r
  have hT := (Traced.new (U := exU) (S := S) (D := exD ![0, 0, 0]) (fun _ => 0) (fun _ => 1) (fun _ => 0)).call
    (j := 0) exW_get rfl (.maxUtility 1 true)
  obtain ⟨q, h1, h2⟩ := C79_bounds_false (exU_usable _) rfl hT (j := 0) rfl rfl (fun _ => le_rfl) (es₁ := []) (es₂ := []) rfl
    ⟨⟨.inl ⟨rfl, rfl⟩, rfl⟩, zero_lt_one⟩ (.inl rfl) (fun w _ => .ok (w 0)) (.other 0) true none
    "SLSQP" (guess := none) (.inr three_ne_zero)
  obtain ⟨w, h3, h4⟩ := least_first (l := -1) (by simp) h1 hf (w₀ := ![-1, 1, 1]) (by simp)
    (by intro i; fin_cases i <;> norm_num) (by simp [Fin.sum_univ_three])
  refine ⟨w, ?_, by simpa using h4⟩
  exact (congrArg Prod.fst (h2 minimize)).trans (by rw [h3])

/-- Two assets: `min_volatility` works, a market-neutral `max_quadratic_utility` is refused, and the bounds are gone all the
same. -/
example {S : Solver 2} (hS : Exact S) :
    let D : Data 2 := exD ![1, 0]
    let r₁ := run exU S D .minVolatility exO (exW : World 2).heap
    let r₂ := run exU S D (.maxUtility 1 true) r₁.2.1 r₁.2.2
    (∃ e, r₂.1 = .error e) ∧ ∃ q : Request 2 ℕ, AsksScipy q (fun _ => -1) (fun _ => 1) (fun w _ => .ok (w 0)) (.other 0) true none
      "SLSQP" none ∧ ∀ minimize : Request 2 ℕ → Except PyErr (ScipyResult 2),
        (nonconvexCall minimize (fun w _ => .ok (w 0)) (.other 0) true none "SLSQP" none r₂.2.1 r₂.2.2).1 =
          (minimize q).map ScipyResult.x := by
  intro D r₁ r₂
  have hw : r₁.1 = .ok (some _) := ex_minvol hS ![1, 0]
  have hT := (Traced.new (U := exU) (S := S) (D := D) (fun _ => 0) (fun _ => 1) (fun _ => 0)).call
    (j := 0) exW_get rfl .minVolatility
  have hT' := hT.call (j := 0) rfl rfl (.maxUtility 1 true)
  refine ⟨?_, ?_⟩
  · exact C78_refused (exU_usable _) hT (j := 0) rfl rfl (List.mem_singleton_self _) ⟨.inl trivial, _, hw⟩
      (c := .maxUtility 1 true) trivial (by rintro (⟨h, -⟩ | ⟨⟨r, b, h⟩, -⟩) <;> cases h)
  · obtain ⟨q, h1, h2⟩ := C79_bounds_false (exU_usable _) rfl hT' (j := 0) rfl rfl (fun _ => le_rfl) (es₁ := [(.minVolatility, r₁.1)])
      (es₂ := []) rfl ⟨⟨.inl ⟨rfl, rfl⟩, rfl⟩, zero_lt_one⟩
      (.inr ⟨[], .minVolatility, _, by rw [hw]; rfl, .inl trivial, nofun⟩) (fun w _ => .ok (w 0)) (.other 0) true none
      "SLSQP" (guess := none) (.inr two_ne_zero)
    exact ⟨q, h1, fun m => (congrArg Prod.fst (h2 m)).trans (by cases m q <;> rfl)⟩

/-- **C79 fails: constraints added with `add_constraint` or `add_sector_constraints` are not passed on.** A lower bound of
1/2 on the weight of the first asset is accepted, and a flawless scipy returns weights without the first asset. -/
theorem C79_added_false {S : Solver 3} {minimize : Request 3 ℕ → Except PyErr (ScipyResult 3)} (hf : Flawless minimize) :
    let sector : Fin 3 → Option String := ![some "a", none, none]
    let r := run exU S (exD ![0, 0, 0]) (.addSectors sector [(some "a", 1 / 2)] []) exO (exW : World 3).heap
    isOk r.1 = true ∧
    ∃ w, (nonconvexCall minimize (fun w _ => .ok (w 0)) (.other 0) true none "SLSQP" none r.2.1 r.2.2).1 = .ok w ∧
      w 0 = 0 := by
  intro sector r
  have hT := (Traced.new (U := exU) (S := S) (D := exD ![0, 0, 0]) (fun _ => 0) (fun _ => 1) (fun _ => 0)).call
    (j := 0) exW_get rfl (.addSectors sector [(some "a", 1 / 2)] [])
  obtain ⟨q, h1, h2⟩ := C79_request_partial hT (j := 0) rfl rfl (.inr (by
    intro e he
    rw [List.nil_append, List.mem_singleton] at he
    subst he
    exact id)) (fun w _ => .ok (w 0)) (.other 0) true none
    "SLSQP" (guess := none) (.inr three_ne_zero)
  obtain ⟨w, h3, h4⟩ := least_first (l := 0) rfl h1 hf (w₀ := ![0, 1, 0]) (by simp) (by intro i; fin_cases i <;> simp)
    (by simp [Fin.sum_univ_three])
  refine ⟨rfl, w, ?_, by simpa using h4⟩
  exact (congrArg Prod.fst (h2 minimize)).trans (by rw [h3])

/-- With the default `objective_args=None` a function of the weights alone cannot be minimised: it is called with a second
argument.  (`()` works.) -/
example (g : (Fin 3 → ℝ) → ℝ) :
    let unary : (Fin 3 → ℝ) → List ℕ → Except PyErr ℝ := fun w a => if a = [] then .ok (g w) else .error .typeError
    ∀ q, AsksScipy q (fun _ => 0) (fun _ => 1) unary (.other 0) true none "SLSQP" none → ∀ w, q.cost w = .error .typeError :=
  fun _ hq w => (hq.other 0 rfl w).trans (if_neg nofun)

end Verif.Convex
