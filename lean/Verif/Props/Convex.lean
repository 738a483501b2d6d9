import Verif.Proof.ConvexReturn
import Verif.Spec.Solver

/-!
Properties C39, C40, C41, C49 and C50: histories of calls on optimizer objects.
-/

noncomputable section

namespace Verif.Convex
open Verif.Py Verif.Base Matrix

variable {n : ℕ} {U : Uni n} {S : Solver n} {D : Data n} {cfg : Cfg n} {o : OState n}

/-! ### C39 -/

theorem outcomeF_ok {f : Asg n → Fin n → ℝ} {a : Answer n} {w : Fin n → ℝ} (h : outcomeF f a = .ok w) :
    ∃ s v, a = .optimal s v ∧ w = round16 (f s) := by
  cases a with
  | optimal s v => exact ⟨s, v, rfl, (Except.ok.inj h).symm⟩
  | status s => cases h
  | raised e => cases e <;> cases h

theorem Documented.strict {upar : ℕ → ℝ} {again : Bool} {c : Call n} {P : Prob n} {f : Asg n → Fin n → ℝ}
    (d : Documented U D cfg upar again c P f) (hr : again = false ∨ ∀ r, c ≠ .convex r false) :
    Documented U D cfg upar false c P f := by
  cases d with
  | ask v q h => exact .ask v q h
  | sharpe rf mu v hc hk hmu => exact .sharpe rf mu v hc hk hmu
  | convex i b b' hc hb =>
    rcases hb with rfl | ⟨h1, rfl⟩
    · exact .convex i b' b' hc (.inl rfl)
    · rcases hr with h2 | h2
      · rw [h1] at h2; cases h2
      · exact absurd hc (h2 _)

/-- **C39** (part).  In every history: if an optimisation method returns weights, the last problem given to
the solver is exactly the documented one for this call and the object's configuration, with the parameter
values of now; the weights are the solver's, and they are stored.  Left out: parameters of the user that
bear a name of the library, objectives that are not scalar, constraints that are not constraints (see
`Usable`), and `convex_objective(…, weights_sum_to_one=False)` on an object optimised before. -/
theorem C39_weights_documented_partial (hU : Usable U D) {W : World n} (hW : Reachable U S D W) {j : ℕ}
    (hj : W.objs[j]? = some (cfg, o)) {c : Call n} (hnc : ∀ m b, c ≠ .nonconvex m b)
    (hrep : o.opt = none ∨ ∀ r, c ≠ .convex r false) {w : Fin n → ℝ}
    (hw : (run U S D c o W.heap).1 = .ok (some w)) :
    (run U S D c o W.heap).2.1.weights = some w ∧
    ∃ pre P f s v, Pre U D cfg W.heap.upar c pre ∧ Documented U D cfg W.heap.upar false c P f ∧
      (run U S D c o W.heap).2.2.log = W.heap.log ++ pre ++ [P] ∧
      S (W.heap.log ++ pre).length P = .optimal s v ∧ w = round16 (f s) := by
  obtain ⟨g, hm⟩ := good_of_reachable hU hW _ (List.mem_of_getElem? hj)
  refine ⟨((call_opts c).stops hnc o W.heap w hw).2, ?_⟩
  obtain ⟨pre, h1, ⟨-, h3⟩ | ⟨P, f, h2, h3, h4⟩⟩ := (run_post (S := S) hU g hm c).res
  · obtain ⟨m, b, e⟩ := h3 w hw
    exact absurd e (hnc m b)
  · rw [h3] at hw
    cases ho : outcomeF f (S (W.heap.log ++ pre).length P) with
    | error e => rw [ho] at hw; cases hw
    | ok w' =>
      rw [ho] at hw
      cases hw
      obtain ⟨s, v, k1, k2⟩ := outcomeF_ok ho
      exact ⟨pre, P, f, s, v, h1, h2.strict (hrep.imp (fun e => by rw [e]; rfl) id), h4, k1, k2⟩

/-- Also when the solver fails, it has been given nothing but documented problems. -/
theorem C39_only_documented_partial (hU : Usable U D) {W : World n} (hW : Reachable U S D W) {j : ℕ}
    (hj : W.objs[j]? = some (cfg, o)) (c : Call n) (hrep : o.opt = none ∨ ∀ r, c ≠ .convex r false) :
    ∃ pre post, Pre U D cfg W.heap.upar c pre ∧ (run U S D c o W.heap).2.2.log = W.heap.log ++ pre ++ post ∧
      (post = [] ∨ ∃ P f, post = [P] ∧ Documented U D cfg W.heap.upar false c P f) := by
  obtain ⟨g, hm⟩ := good_of_reachable hU hW _ (List.mem_of_getElem? hj)
  obtain ⟨pre, h1, ⟨h2, -⟩ | ⟨P, f, h2, -, h4⟩⟩ := (run_post (S := S) hU g hm c).res
  · exact ⟨pre, [], h1, by rw [List.append_nil]; exact h2, .inl rfl⟩
  · exact ⟨pre, [P], h1, h4, .inr ⟨P, f, rfl, h2.strict (hrep.imp (fun e => by rw [e]; rfl) id)⟩⟩

/-- First calls with complete data and accepted arguments do reach the solver. -/
theorem C39_first_call_reaches (hU : Usable U D) {W : World n} (hW : Reachable U S D W) {j : ℕ}
    (hj : W.objs[j]? = some (cfg, o)) (ho : o.opt = none) {c : Call n} (hc : Complete D c) (ha : Accepts D c)
    (hne : ∀ f t mn, D.kind = .ef → c ≠ .efficientReturn f t mn) :
    Passes U S D cfg c W.heap (run U S D c o W.heap) :=
  (fresh_reaches hU (good_of_reachable hU hW _ (List.mem_of_getElem? hj)).1 ho hc ha hne).1

/-- The first call of `EfficientFrontier.efficient_return`, no largest return other than zero being cached: it
solves the largest-return problem, refuses larger targets with ValueError, and gives the solver the documented
problem for the others. -/
theorem C39_first_return_reaches (hU : Usable U D) {W : World n} (hW : Reachable U S D W) {j : ℕ}
    (hj : W.objs[j]? = some (cfg, o)) (ho : o.opt = none) (hc : o.maxRet = none ∨ o.maxRet = some 0)
    (hk : D.kind = .ef) (hsym : D.symOk = true) {mu : Fin n → ℝ} (hmu : D.mu = some mu) {s : Asg n} {v : ℝ}
    (hs : S W.heap.log.length (maxProb U cfg W.heap.upar mu) = .optimal s v) (t : ℝ) (mn : Bool) :
    (-v < t → (run U S D (.efficientReturn true t mn) o W.heap).1 = .error .valueError ∧
      (run U S D (.efficientReturn true t mn) o W.heap).2.1 = { o with maxRet := some (-v) }) ∧
    (t ≤ -v → ∃ h₁, h₁.log = W.heap.log ++ [maxProb U cfg W.heap.upar mu] ∧ h₁.upar = W.heap.upar ∧
      Passes U S D cfg (.efficientReturn true t mn) h₁ (run U S D (.efficientReturn true t mn) o W.heap)) := by
  obtain ⟨h₁, k1, -, k3, ⟨e, k4, -⟩ | ⟨m, k4, k5, k6⟩⟩ := fresh_return (S := S) hU hk hsym
    (good_of_reachable hU hW _ (List.mem_of_getElem? hj)).1 ho hmu
    (fun m hm => by rcases hc with k | k <;> rw [k] at hm <;> cases hm; rfl) (t := t) (mn := mn)
  · rw [hs] at k4; cases k4
  · rw [hs] at k4
    cases k4
    exact ⟨fun ht => by rw [k5 ht]; exact ⟨rfl, rfl⟩, fun ht => ⟨h₁, k1, k3, (k6 ht).1.1⟩⟩

/-! ### C40 -/

/-- **C40.**  After an attempted optimisation, in every later world, the methods that add objectives and
constraints refuse and change nothing. -/
theorem C40_add_refused_forever {W W' : World n} {j : ℕ} (hj : W.objs[j]? = some (cfg, o)) {c : Call n}
    (ha : Attempted D c o W.heap (run U S D c o W.heap))
    (hs : Relation.ReflTransGen (Step U S D)
      { objs := W.objs.set j (cfg.after (isOk (run U S D c o W.heap).1) c, (run U S D c o W.heap).2.1)
        heap := (run U S D c o W.heap).2.2 } W') :
    ∃ cfg' o', W'.objs[j]? = some (cfg', o') ∧ Refuses U S D o' W'.heap := by
  obtain ⟨p, hp⟩ := Option.ne_none_iff_exists'.1 (attempted_marks ha)
  obtain ⟨cfg', o', h1, h2⟩ := steps_keep hs (j := j) (p := p)
    ⟨_, _, List.getElem?_set_self (List.getElem?_eq_some_iff.1 hj).1, hp⟩
  exact ⟨cfg', o', h1, refuses_of_opt (by rw [h2]; exact nofun)⟩

/-! ### C41 -/

theorem ask_names {v v' : ℕ} (hk : D.kind ≠ .semi) (c : Call n) : ask D v c = ask D v' c := by
  cases c <;> simp only [ask] <;> (try split) <;> simp_all

/-- **C41** (part).  Let an unoptimised object get any sequence of calls of one target method with any
targets, accepted or not, mixed with idle calls (`set_weights`, refused additions and arguments, disabled methods),
whatever the solver answers and whatever happens to other objects and to the user's parameters.  Then each further accepted target gives the solver exactly the problem, and the caller
exactly the answer, that the unoptimised object would have given; and targets are rejected by the one iff
by the other.  (`EfficientSemivariance` creates new variables for each problem: there the two problems are
the documented one with possibly different variable numbers.)  `EfficientFrontier.efficient_return` is
treated below. -/
theorem C41_retarget_partial (hU : Usable U D) {W W' : World n} (hW : Reachable U S D W) {j : ℕ}
    (hj : W.objs[j]? = some (cfg, o)) (ho : o.opt = none) {c₀ : Call n} (hp : (pname D.kind c₀).isSome = true)
    (hr : Retargets U S D j c₀ W W') :
    ∃ o', W'.objs[j]? = some (cfg, o') ∧
      ∀ c, SameMethod c₀ c → c.neutral = c₀.neutral → (∀ f t mn, D.kind = .ef → c ≠ .efficientReturn f t mn) →
        (Complete D c → Accepts D c →
          Passes U S D cfg c W'.heap (run U S D c o' W'.heap) ∧
          Passes U S D cfg c W'.heap (run U S D c o W'.heap) ∧
          (D.kind ≠ .semi → (run U S D c o' W'.heap).1 = (run U S D c o W'.heap).1 ∧
            (run U S D c o' W'.heap).2.2.log = (run U S D c o W'.heap).2.2.log)) ∧
        (¬ Accepts D c →
          (∃ e, (run U S D c o' W'.heap).1 = .error e ∧ (run U S D c o' W'.heap).2.2.log = W'.heap.log) ∧
          (∃ e, (run U S D c o W'.heap).1 = .error e ∧ (run U S D c o W'.heap).2.2.log = W'.heap.log)) := by
  obtain ⟨hle, o', hj', cu⟩ := retargets_current hU hW hp hj ho hr
  refine ⟨o', hj', fun c hs hn hne => ?_⟩
  have g : Good U D cfg o W'.heap := (good_of_reachable hU hW _ (List.mem_of_getElem? hj)).1.mono hle
  have g' : Good U D cfg o' W'.heap := (good_of_reachable hU (hr.reachable hW) _ (List.mem_of_getElem? hj')).1
  obtain ⟨nm, hnm⟩ := Option.isSome_iff_exists.1 hp
  have hnm' : pname D.kind c = some nm := (pname_same hs).trans hnm
  have hp' : (pname D.kind c).isSome = true := by rw [hnm']; rfl
  constructor
  · intro hc ha
    have p1 : Passes U S D cfg c W'.heap (run U S D c o' W'.heap) := by
      rcases cu with ho' | l
      · exact (fresh_reaches hU g' ho' hc ha hne).1
      · exact (live_reaches hU (l.congr hnm hnm' (mnOf_same hs hn)) ha hne).1
    have p2 := (fresh_reaches (S := S) hU g ho hc ha hne).1
    refine ⟨p1, p2, fun hk => ?_⟩
    obtain ⟨v, q, a1, a2, a3⟩ := p1
    obtain ⟨v', q', b1, b2, b3⟩ := p2
    rw [ask_names hk (v' := v'), b1] at a1
    cases a1
    exact ⟨a2.trans b2.symm, a3.trans b3.symm⟩
  · intro ha
    refine ⟨?_, fresh_rejects hU g ho hp' ha⟩
    rcases cu with ho' | l
    · exact fresh_rejects hU g' ho' hp' ha
    · rw [live_rejects (l.congr hnm hnm' (mnOf_same hs hn)) ha]
      exact ⟨_, rfl, rfl⟩

/-- **C41** (part), `EfficientFrontier.efficient_return`: once a problem is stored and a largest return
other than zero is cached, every target up to it gives the solver exactly the documented problem, and every
larger one is refused with nothing changed. -/
theorem C41_retarget_return_partial (hU : Usable U D) {W W' : World n} (hW : Reachable U S D W) (hk : D.kind = .ef)
    {j : ℕ} (hj : W.objs[j]? = some (cfg, o)) (ho : o.opt = none) {t₀ : ℝ} {mn : Bool}
    (hr : Retargets U S D j (.efficientReturn true t₀ mn) W W') :
    ∃ o', W'.objs[j]? = some (cfg, o') ∧ ∀ m, o'.opt ≠ none → o'.maxRet = some m → m ≠ 0 → ∀ t,
      (t ≤ m → Passes U S D cfg (.efficientReturn true t mn) W'.heap
        (run U S D (.efficientReturn true t mn) o' W'.heap)) ∧
      (m < t → run U S D (.efficientReturn true t mn) o' W'.heap = (.error .valueError, o', W'.heap)) := by
  obtain ⟨-, o', hj', cu⟩ := retargets_current hU hW (by simp [pname]) hj ho hr
  refine ⟨o', hj', fun m hopt hm h0 t => ⟨fun ht => ?_, fun ht => ?_⟩⟩
  · have l := cu.resolve_left hopt
    have l' : Live U D cfg o' W'.heap (.efficientReturn true t mn) :=
      l.congr (nm := "target_return") (by simp [pname]) (by simp [pname]) rfl
    exact (live_return hU hk l' hm h0 ht).1
  · refine some_err (x := efficientReturn S D true t mn) (by simp only [run, hk]) ?_
    have e := checkMax_cached (S := S) (D := D) (h := W'.heap) hm h0 t
    rw [if_pos ht] at e
    exact bind_err e

/-- **C41**: asking for the other neutrality setting once a problem is stored raises InstantiationError
and changes nothing. -/
theorem C41_neutrality_change (hU : Usable U D) {W W' : World n} (hW : Reachable U S D W) {j : ℕ}
    (hj : W.objs[j]? = some (cfg, o)) (ho : o.opt = none) {c₀ : Call n} (hp : (pname D.kind c₀).isSome = true)
    (hr : Retargets U S D j c₀ W W') :
    ∃ o', W'.objs[j]? = some (cfg, o') ∧ ∀ c, o'.opt ≠ none → SameMethod c₀ c → c.neutral ≠ c₀.neutral →
      Accepts D c → ((∀ f t mn, D.kind = .ef → c ≠ .efficientReturn f t mn) ∨
        ∃ m, o'.maxRet = some m ∧ m ≠ 0 ∧ ∀ f t mn, c = .efficientReturn f t mn → t ≤ m) →
      run U S D c o' W'.heap = (.error .instantiation, o', W'.heap) := by
  obtain ⟨-, o', hj', cu⟩ := retargets_current hU hW hp hj ho hr
  exact ⟨o', hj', fun c hopt hs hn ha hne => live_change (cu.resolve_left hopt) hs hn ha hne⟩

/-! ### C49 -/

theorem addSectors_sat (sec : Fin n → Option String) (up : Bool) (l : List (Option String × ℝ)) (h : Heap n)
    (ho : o.opt = none) :
    ∃ o' i, addSectors sec up l o h = (.ok (), o', { h with nextId := i }) ∧ o'.opt = none ∧
      o'.objective = o.objective ∧ o'.added = o.added ∧
      ∀ e : Env n, (∀ c ∈ o'.cons, c.sat e) ↔ (∀ c ∈ o.cons, c.sat e) ∧ ∀ x ∈ l,
        if up then (∑ i with sec i = x.1, e.asg.w i) ≤ x.2 else x.2 ≤ ∑ i with sec i = x.1, e.asg.w i := by
  induction l generalizing o h with
  | nil => exact ⟨o, h.nextId, rfl, ho, rfl, rfl, by simp⟩
  | cons x l ih =>
    let o₁ : OState n := { o with cons := o.cons ++ [⟨.lib h.nextId, sectorBody sec x.1 up x.2, fun _ => True⟩] }
    have r : addLib (sectorBody sec x.1 up x.2) (fun _ => True) o h =
        (.ok (), o₁, { h with nextId := h.nextId + 1 }) := addLib_run _ _ o h ho
    obtain ⟨o', i, h1, h2, h3, h4, h5⟩ := ih (o := o₁) { h with nextId := h.nextId + 1 } ho
    refine ⟨o', i, (bind_ok r).trans h1, h2, h3, h4, fun e => ?_⟩
    rw [h5]
    simp only [o₁, List.forall_mem_append, List.forall_mem_cons, List.not_mem_nil, false_imp_iff, implies_true,
      and_true, and_assoc]
    refine and_congr_right fun _ => and_congr_left fun _ => ?_
    unfold Con.sat
    cases up <;> simp [sectorBody, ConBody.sat, real, const, Finset.sum_filter]

/-- **C49.**  Before the first optimisation, `add_sector_constraints` succeeds, and what the constraints then
allow is what they allowed before together with the given bounds on the listed sectors. -/
theorem C49_sector_constraints (sec : Fin n → Option String) (lower upper : List (Option String × ℝ)) (h : Heap n)
    (ho : o.opt = none) :
    ∃ o' h', run U S D (.addSectors sec lower upper) o h = (.ok none, o', h') ∧ o'.opt = none ∧
      o'.objective = o.objective ∧ o'.added = o.added ∧
      ∀ e : Env n, (∀ c ∈ o'.cons, c.sat e) ↔ (∀ c ∈ o.cons, c.sat e) ∧
        (∀ x ∈ upper, (∑ i with sec i = x.1, e.asg.w i) ≤ x.2) ∧
        ∀ x ∈ lower, x.2 ≤ ∑ i with sec i = x.1, e.asg.w i := by
  obtain ⟨o₁, i₁, e1, k1, l1, m1, s1⟩ := addSectors_sat sec true upper h ho
  obtain ⟨o₂, i₂, e2, k2, l2, m2, s2⟩ := addSectors_sat sec false lower { h with nextId := i₁ } k1
  have e : addSectorConstraints sec lower upper o h = (.ok (), o₂, { h with nextId := i₂ }) := (bind_ok e1).trans e2
  refine ⟨o₂, { h with nextId := i₂ }, ?_, k2, l2.trans l1, m2.trans m1, fun x => ?_⟩
  · show (addSectorConstraints sec lower upper >>= fun _ => pure none) o h = _
    rw [none_run, e]
    rfl
  · rw [s2, s1]
    simp [and_assoc]

/-- Tickers without a sector are unaffected: the bounds do not depend on their weights. -/
theorem C49_unmapped (sec : Fin n → Option String) (l : List (Option String × ℝ)) (hl : ∀ x ∈ l, x.1 ≠ none)
    (w w' : Fin n → ℝ) (hw : ∀ i, sec i ≠ none → w i = w' i) :
    ∀ x ∈ l, ∑ i with sec i = x.1, w i = ∑ i with sec i = x.1, w' i := by
  intro x hx
  refine Finset.sum_congr rfl fun i hi => hw i ?_
  rw [(Finset.mem_filter.1 hi).2]
  exact hl x hx

/-! ### C50 -/

theorem ask_mn {v : ℕ} {c : Call n} {q : Ask n} (h : ask D v c = some q) : q.mn = mnOf c := by
  unfold ask at h
  split at h <;> (try split at h) <;> first | (cases h; rfl) | cases h

/-- **C50.**  If a market-neutral optimisation returns weights, the problem solved has sum 0, the method's own
requirements, every constraint the user added, and the user's bounds, except that bounds without a negative
lower bound are replaced by (-1, 1). -/
theorem C50_neutral_bounds (hU : Usable U D) {W : World n} (hW : Reachable U S D W) {j : ℕ}
    (hj : W.objs[j]? = some (cfg, o)) {c : Call n} (hn : mnOf c = true) {w : Fin n → ℝ}
    (hw : (run U S D c o W.heap).1 = .ok (some w)) :
    ∃ pre P v q s x, ask D v c = some q ∧ (run U S D c o W.heap).2.2.log = W.heap.log ++ pre ++ [P] ∧
      S (W.heap.log ++ pre).length P = .optimal s x ∧ w = round16 s.w ∧
      ((∀ i, 0 ≤ cfg.lb i) → ∀ s, P.feas s ↔ (∀ i, -1 ≤ s.w i ∧ s.w i ≤ 1) ∧
        (∀ x ∈ cfg.cons, x.holds U W.heap.upar s) ∧ ∑ i, s.w i = 0 ∧ q.extra s) ∧
      ((∃ i, cfg.lb i < 0) → ∀ s, P.feas s ↔ (∀ i, cfg.lb i ≤ (s.w i : EReal) ∧ (s.w i : EReal) ≤ cfg.ub i) ∧
        (∀ x ∈ cfg.cons, x.holds U W.heap.upar s) ∧ ∑ i, s.w i = 0 ∧ q.extra s) := by
  have hnc : ∀ m b, c ≠ .nonconvex m b := by rintro m b rfl; simp [mnOf] at hn
  have hrep : ∀ r, c ≠ .convex r false := by rintro r rfl; simp [mnOf] at hn
  obtain ⟨-, pre, P, f, s, v, h1, h2, h3, h4, h5⟩ := C39_weights_documented_partial hU hW hj hnc (.inr hrep) hw
  cases h2 with
  | ask v' q hq =>
    have hq' : q.mn = true := (ask_mn hq).trans hn
    refine ⟨pre, _, v', q, s, v, hq, h3, h4, h5, fun hl s => ?_, fun hl s => ?_⟩
    · simp only [doc, Within, hq', if_true, true_and]
      rw [if_pos hl]
    · simp only [doc, Within, hq', if_true, true_and]
      rw [if_neg (by push Not; exact hl)]
  | sharpe rf mu v hc => subst hc; simp [mnOf] at hn
  | convex i b b' hc => subst hc; simp [mnOf] at hn

/-- Objects that have been built and configured, with any objectives, constraints and sectors, but not yet
optimised. -/
inductive Configured (U : Uni n) (S : Solver n) (D : Data n) : Cfg n → OState n → Heap n → Prop
  | new (lb ub : Fin n → EReal) (upar : ℕ → ℝ) :
      Configured U S D ⟨lb, ub, [], []⟩ (mapBounds lb ub blank (heap₀ upar)).2.1 (mapBounds lb ub blank (heap₀ upar)).2.2
  | objective {cfg : Cfg n} {o : OState n} {h : Heap n} (hc : Configured U S D cfg o h) (i : ℕ) :
      Configured U S D { cfg with objs := cfg.objs ++ [i] } (run U S D (.addObjective (.ok i)) o h).2.1
        (run U S D (.addObjective (.ok i)) o h).2.2
  | constraint {cfg : Cfg n} {o : OState n} {h : Heap n} (hc : Configured U S D cfg o h) (i : ℕ) :
      Configured U S D { cfg with cons := cfg.cons ++ [.usr i] } (run U S D (.addConstraint true (.ok i)) o h).2.1
        (run U S D (.addConstraint true (.ok i)) o h).2.2
  | sectors {cfg : Cfg n} {o : OState n} {h : Heap n} (hc : Configured U S D cfg o h) (sec : Fin n → Option String)
      (l u : List (Option String × ℝ)) :
      Configured U S D (cfg.after true (.addSectors sec l u)) (run U S D (.addSectors sec l u) o h).2.1
        (run U S D (.addSectors sec l u) o h).2.2

theorem Configured.base {h : Heap n} (hc : Configured U S D cfg o h) : Base U cfg o h [] := by
  induction hc with
  | new lb ub upar =>
    refine ⟨rfl, rfl, rfl, rfl, ⟨_, _, [], [], rfl, ⟨⟨_, rfl⟩, rfl, rfl⟩, ⟨⟨_, rfl⟩, rfl, rfl⟩, .nil, .nil⟩, ?_⟩
    intro c hc
    have hc : c ∈ [(⟨.lib 0, lowerCon lb, fun _ => True⟩ : Con n), ⟨.lib 1, upperCon ub, fun _ => True⟩] := hc
    simp only [List.mem_cons, List.not_mem_nil, or_false] at hc
    rcases hc with rfl | rfl
    · exact Nat.zero_lt_two
    · exact Nat.one_lt_two
  | @objective cfg o h hc i b =>
    have e : run U S D (.addObjective (.ok i)) o h = (.ok none, { o with added := o.added ++ [U.mkObj i] }, h) := by
      show (addObjective U (.ok i) >>= fun _ => pure none) o h = _
      rw [none_run]
      have : addObjective U (.ok i) o h = _ := bind_ok (a := o) (o' := o) (h' := h) rfl
      rw [this, if_neg (by rw [b.opt]; exact Bool.false_ne_true)]
      rfl
    rw [e]
    exact ⟨b.opt, b.lb, b.ub, by simp [b.added], b.cons, b.ids⟩
  | @constraint cfg o h hc i b =>
    have e : run U S D (.addConstraint true (.ok i)) o h = (.ok none, { o with cons := o.cons ++ [U.mkCon i] }, h) := by
      show (addConstraint U true (.ok i) >>= fun _ => pure none) o h = _
      rw [none_run]
      have : addConstraint U true (.ok i) o h = _ := bind_ok (a := o) (o' := o) (h' := h) rfl
      rw [this, if_neg (by rw [b.opt]; exact Bool.false_ne_true)]
      rfl
    rw [e]
    obtain ⟨b₁, b₂, us, es, c1, c2, c3, c4, c5⟩ := b.cons
    cases c5
    refine ⟨b.opt, b.lb, b.ub, b.added, ⟨b₁, b₂, us ++ [U.mkCon i], [], by simp [c1], c2, c3,
      List.rel_append c4 (.cons rfl .nil), .nil⟩, ?_⟩
    intro c hc
    rcases List.mem_append.1 hc with hc | hc
    · exact b.ids c hc
    · rw [List.mem_singleton.1 hc]; trivial
  | @sectors cfg o h hc sec lo up b =>
    obtain ⟨o₁, i₁, e1, k1, b₁, -⟩ := addSectors_clean sec true up b
    obtain ⟨o₂, i₂, e2, k2, b₂, -⟩ := addSectors_clean sec false lo b₁
    have e : addSectorConstraints sec lo up o h = (.ok (), o₂, { h with nextId := i₂ }) := (bind_ok e1).trans e2
    have hrun : run U S D (.addSectors sec lo up) o h = _ := none_run _ _ _
    rw [hrun, e]
    exact b₂

/-- **C50**, for any objectives and constraints whatever: the weight-sum step of every market-neutral request
succeeds on a configured object, and what the constraints then allow is what the user's constraints allow,
sum 0, and (-1, 1) in place of the bounds if those were long-only, otherwise the user's bounds. -/
theorem C50_weight_sum {h : Heap n} (hc : Configured U S D cfg o h) :
    ∃ o' h', makeWeightSum true o h = (.ok (), o', h') ∧
      ((∀ i, 0 ≤ cfg.lb i) → ∀ e : Env n, (∀ c ∈ o'.cons, c.sat e) ↔ (∀ i, -1 ≤ e.asg.w i ∧ e.asg.w i ≤ 1) ∧
        (∀ x ∈ cfg.cons, x.holds U e.upar e.asg) ∧ ∑ i, e.asg.w i = 0) ∧
      ((∃ i, cfg.lb i < 0) → ∀ e : Env n, (∀ c ∈ o'.cons, c.sat e) ↔
        (∀ i, cfg.lb i ≤ (e.asg.w i : EReal) ∧ (e.asg.w i : EReal) ≤ cfg.ub i) ∧
        (∀ x ∈ cfg.cons, x.holds U e.upar e.asg) ∧ ∑ i, e.asg.w i = 0) := by
  have b := hc.base
  by_cases hb : ∃ i, o.lb i < 0
  · have e0 : amendBounds o h = (.ok (), o, h) := by
      unfold amendBounds
      rw [bind_ok (a := o) (o' := o) (h' := h) rfl, if_neg (not_not.2 hb)]
      rfl
    have e1 := addLib_run (sumCon 0) (fun _ => True) o h b.opt
    have e2 : sumConstraint true o h = _ := (bind_ok e0).trans e1
    refine ⟨{ o with cons := o.cons ++ [⟨.lib h.nextId, sumCon 0, fun _ => True⟩], neutral := some true },
      { h with nextId := h.nextId + 1 }, bind_ok e2, fun hl => ?_, fun _ e => ?_⟩
    · obtain ⟨i, hi⟩ := hb
      rw [b.lb] at hi
      exact absurd (hl i) (not_le.2 hi)
    · show (∀ c ∈ o.cons ++ _, c.sat e) ↔ _
      rw [List.forall_mem_append, b.sat e, pieceSat_nil]
      simp only [List.forall_mem_singleton, Con.sat, sat_sum, and_true, and_assoc]
  · have hb0 : ∀ i, 0 ≤ cfg.lb i := by
      rw [← b.lb]; intro i; exact not_lt.1 fun hi => hb ⟨i, hi⟩
    obtain ⟨b₁, b₂, us, es, c1, c2, c3, c4, c5⟩ := b.cons
    cases c5
    rw [List.append_nil] at c1
    let o1 : OState n := { o with lb := fun _ => -1, ub := fun _ => 1 }
    have r1 : mapBounds (fun _ => -1) (fun _ => 1) o h = (.ok (),
        { o1 with cons := o.cons ++ [⟨.lib h.nextId, lowerCon (fun _ => -1), always⟩] ++
            [⟨.lib (h.nextId + 1), upperCon (fun _ => 1), always⟩] },
        { h with nextId := h.nextId + 1 + 1 }) := by
      unfold mapBounds
      rw [bind_ok (a := ()) (o' := o1) (h' := h) rfl, bind_ok (addLib_run _ _ o1 h b.opt)]
      exact addLib_run _ _ _ _ b.opt
    let o2 : OState n := { o1 with cons := us ++ [⟨.lib h.nextId, lowerCon (fun _ => -1), always⟩] ++
            [⟨.lib (h.nextId + 1), upperCon (fun _ => 1), always⟩] }
    have e0 : amendBounds o h = (.ok (), o2, { h with nextId := h.nextId + 1 + 1 }) := by
      unfold amendBounds
      rw [bind_ok (a := o) (o' := o) (h' := h) rfl, if_pos hb, bind_ok r1]
      rw [c1]
      rfl
    have e1 := addLib_run (sumCon 0) (fun _ => True) o2 { h with nextId := h.nextId + 1 + 1 } b.opt
    have e2 : sumConstraint true o h = _ := (bind_ok e0).trans e1
    refine ⟨_, _, bind_ok e2, fun _ e => ?_, fun ⟨i, hi⟩ => absurd (hb0 i) (not_le.2 hi)⟩
    show (∀ c ∈ us ++ _ ++ _ ++ _, c.sat e) ↔ _
    have e2 : (∀ i : Fin n, (-1 : EReal) ≤ (e.asg.w i : EReal) ∧ (e.asg.w i : EReal) ≤ 1) ↔
        ∀ i, -1 ≤ e.asg.w i ∧ e.asg.w i ≤ 1 := by
      refine forall_congr' fun i => ?_
      rw [show (-1 : EReal) = ((-1 : ℝ) : EReal) by rw [EReal.coe_neg, EReal.coe_one],
        show (1 : EReal) = ((1 : ℝ) : EReal) from EReal.coe_one.symm, EReal.coe_le_coe_iff, EReal.coe_le_coe_iff]
    simp only [List.forall_mem_append, List.forall_mem_singleton, forall₂_sat c4]
    unfold Con.sat
    simp only [sat_sum, always, and_true]
    rw [← e2, ← sat_bounds]
    tauto

end Verif.Convex
