import Verif.Model.ClaObj
import Verif.Spec.ClaObj
import Verif.Proof.ClaScale
import Verif.Props.ClaFindings

/-! Property C68: what `CLA` objects report and answer, whatever was called before. -/

noncomputable section

namespace Verif.ClaObj
open Verif.Py Verif.Base Verif.Cla Verif.Perf

variable {n : ℕ} {inv : Cla.Inv ℝ} {sharpe : (Fin n → ℝ) → ℝ} {fuel : ℕ} {p : Problem n ℝ} {o o' : Obj n} {cs : List Call}
variable {outs : List (Out n)}

/-- A new object. -/
def fresh (p : Problem n ℝ) : Obj n := { p := p }

/-- A sequence of calls that all return (normally or with an exception the caller catches). -/
def runs (inv : Cla.Inv ℝ) (sharpe : (Fin n → ℝ) → ℝ) (fuel : ℕ) : Obj n → List Call → Option (Obj n × List (Out n))
  | o, [] => some (o, [])
  | o, c :: cs =>
    match o.run inv sharpe fuel c with
    | none => none
    | some (o', x) => (runs inv sharpe fuel o' cs).map fun r => (r.1, x :: r.2)

/-- The weights a call shows its caller. -/
def shown : Out n → Option (Fin n → ℝ)
  | .weights w => some w
  | .picture q => q.markedWeights
  | _ => none

/-- The frontier a call shows its caller. -/
def drawn : Out n → Option (Frontier n)
  | .frontier f => some f
  | .picture q => some q.line
  | _ => none

/-! ### One call -/

theorem maxSharpe_stored {s s' : State n ℝ} {w : Fin n → ℝ} (h : Cla.maxSharpe p inv sharpe fuel s = some (s', .ok w)) :
    s'.w ≠ [] := by
  unfold Cla.maxSharpe at h
  split at h
  · cases h
  · cases h
  · simp only [Option.some.injEq, Prod.mk.injEq] at h
    obtain ⟨rfl, h⟩ := h
    intro e
    rw [e] at h
    cases h

theorem efficientFrontier_stored {s : State n ℝ} (h : s.w ≠ []) (points : ℕ) :
    Cla.efficientFrontier p inv fuel points s = some (s, .ok (frontierPoints (points / s.w.length) s.w)) := by
  unfold Cla.efficientFrontier ensureSolved
  rw [if_neg h]
  simp only [if_neg h]

theorem performance_none (h : o.weights = none) (rf : ℝ) : o.performance rf = .error .valueError := by
  unfold Obj.performance
  rw [h]
  rfl

theorem performance_some {w : Fin n → ℝ} (h : o.weights = some w) (rf : ℝ) :
    ∃ r, o.performance rf = .ok r ∧ Documented w o.p.mean o.p.cov rf r := by
  unfold Obj.performance
  rw [h]
  exact C13_performance_array id w o.p.mean o.p.cov rf _ _ rfl rfl

theorem belongs_of (p : Problem n ℝ) (ws : List (Fin n → ℝ)) :
    Belongs p.mean p.cov (frontierOf p ws).1 (frontierOf p ws).2.1 ws := by
  constructor
  · simp only [frontierOf, List.forall₂_map_left_iff]
    exact List.forall₂_same.2 fun w _ => rfl
  · simp only [frontierOf, List.forall₂_map_left_iff]
    refine List.forall₂_same.2 fun w _ => ⟨fun h => ?_, fun h => ?_⟩
    · exact if_neg (not_lt.2 h)
    · exact if_pos h

/-- What a call may change. -/
structure Step (o : Obj n) (x : Out n) (o' : Obj n) : Prop where
  data : o'.p = o.p
  weights : o'.weights = (shown x).or o.weights
  frontier : o'.frontier = (drawn x).or o.frontier
  fits : (∀ f, o.frontier = some f → Belongs o.p.mean o.p.cov f.1 f.2.1 f.2.2) →
    ∀ f, drawn x = some f → Belongs o.p.mean o.p.cov f.1 f.2.1 f.2.2
  marked : ∀ q, x = .picture q → ∃ w, q.markedWeights = some w ∧ Documented w o.p.mean o.p.cov 0 q.marked ∧
    q.assets = List.ofFn fun i => (Perf.fsqrt (o.p.cov i i), o.p.mean i)

theorem maxSharpe_step {x : Out n} (h : o.maxSharpe inv sharpe fuel = some (o', x)) :
    Step o x o' ∧ ((∃ e, x = .raised e) ∧ o'.weights = o.weights ∨ ∃ w, x = .weights w ∧ o'.s.w ≠ []) := by
  unfold Obj.maxSharpe at h
  split at h
  · cases h
  · cases h; exact ⟨⟨rfl, rfl, rfl, nofun, nofun⟩, .inl ⟨⟨_, rfl⟩, rfl⟩⟩
  · rename_i s w e
    cases h
    exact ⟨⟨rfl, rfl, rfl, nofun, nofun⟩, .inr ⟨_, rfl, maxSharpe_stored e⟩⟩

theorem minVolatility_step {x : Out n} (h : o.minVolatility inv fuel = some (o', x)) : Step o x o' := by
  unfold Obj.minVolatility at h
  split at h
  · cases h
  · cases h; exact ⟨rfl, rfl, rfl, nofun, nofun⟩
  · cases h; exact ⟨rfl, rfl, rfl, nofun, nofun⟩

theorem efficientFrontier_step {points : ℕ} {x : Out n} (h : o.efficientFrontier inv fuel points = some (o', x)) :
    Step o x o' ∧ (∀ q, x ≠ .picture q) ∧ shown x = none ∧ (o.s.w ≠ [] → ∃ f, x = .frontier f) := by
  unfold Obj.efficientFrontier at h
  split at h
  · cases h
  · rename_i e
    cases h
    refine ⟨⟨rfl, rfl, rfl, nofun, nofun⟩, nofun, rfl, fun hw => ?_⟩
    rw [efficientFrontier_stored hw] at e
    cases e
  · cases h
    refine ⟨⟨rfl, rfl, rfl, fun _ f hf => ?_, nofun⟩, nofun, rfl, fun _ => ⟨_, rfl⟩⟩
    cases hf
    exact belongs_of _ _

theorem draw_step {points : ℕ} {x : Out n} (h : o.draw inv fuel points = some (o', x)) : Step o x o' ∧
    (∀ w, o.weights = some w → o.s.w ≠ [] → ∃ q, x = .picture q ∧ q.markedWeights = some w) := by
  unfold Obj.draw at h
  cases hw : o.weights with
  | none =>
    rw [performance_none hw] at h
    cases h
    exact ⟨⟨rfl, rfl, rfl, nofun, nofun⟩, nofun⟩
  | some w =>
    obtain ⟨r, hr, hd⟩ := performance_some hw 0
    rw [hr] at h
    dsimp only at h
    cases hf : o.frontier with
    | some f =>
      rw [hf] at h
      cases h
      refine ⟨⟨rfl, ?_, ?_, fun k f' hf' => ?_, fun q hq => ?_⟩, fun w' hw' _ => ⟨_, rfl, hw.trans (hw ▸ hw')⟩⟩
      · show o.weights = o.weights.or o.weights
        rw [hw]; rfl
      · show o.frontier = some f
        exact hf
      · cases hf'; exact k f hf
      · cases hq; exact ⟨w, hw, hd, rfl⟩
    | none =>
      rw [hf] at h
      dsimp only at h
      split at h
      · cases h
      · rename_i o₁ f he
        obtain ⟨st, -, -, -⟩ := efficientFrontier_step he
        cases h
        have hw₁ : o'.weights = some w := by rw [st.weights, hw]; rfl
        refine ⟨⟨st.data, ?_, ?_, fun k f' hf' => st.fits k f' hf', fun q hq => ?_⟩, fun w' hw' _ => ⟨_, rfl, hw₁.trans (by cases hw'; rfl)⟩⟩
        · show o'.weights = o'.weights.or o.weights
          rw [hw₁]; rfl
        · exact st.frontier
        · cases hq; exact ⟨w, hw₁, hd, rfl⟩
      · rename_i o₁ x₁ hne he
        obtain ⟨st, h1, h2, h3⟩ := efficientFrontier_step he
        cases h
        refine ⟨st, fun w' _ hs => ?_⟩
        obtain ⟨f, rfl⟩ := h3 hs
        exact absurd rfl (hne f)

theorem run_step {c : Call} {x : Out n} (h : o.run inv sharpe fuel c = some (o', x)) : Step o x o' := by
  cases c with
  | maxSharpe => exact (maxSharpe_step h).1
  | minVolatility => exact minVolatility_step h
  | efficientFrontier points => exact (efficientFrontier_step h).1
  | setWeights => cases h; exact ⟨rfl, rfl, rfl, nofun, nofun⟩
  | plot points =>
    have h : o.plot inv sharpe fuel points = some (o', x) := h
    unfold Obj.plot at h
    split at h
    · exact (draw_step h).1
    rename_i hw
    split at h
    · cases h
    · rename_i o₁ e he
      cases h
      exact (maxSharpe_step he).1
    · rename_i o₁ x₁ hne he
      obtain ⟨st, ⟨⟨e, rfl⟩, -⟩ | ⟨w, rfl, hs⟩⟩ := maxSharpe_step he
      · exact absurd rfl (hne e)
      obtain ⟨sd, hd⟩ := draw_step h
      obtain ⟨q, rfl, hq⟩ := hd w st.weights hs
      have hp := st.data
      refine ⟨sd.data.trans hp, ?_, ?_, ?_, fun q' hq' => ?_⟩
      · rw [sd.weights]; simp only [shown, hq]; rfl
      · rw [sd.frontier, st.frontier]; rfl
      · have := sd.fits
        rw [st.frontier, hp] at this
        exact this
      · have := sd.marked q' hq'
        rw [hp] at this
        exact this

/-! ### Histories -/

/-- What holds of the object after the calls `cs` that showed `outs`. -/
structure After (p : Problem n ℝ) (outs : List (Out n)) (o : Obj n) : Prop where
  data : o.p = p
  weights : o.weights = (outs.filterMap shown).getLast?
  frontier : o.frontier = (outs.filterMap drawn).getLast?
  fits : ∀ x ∈ outs, ∀ f, drawn x = some f → Belongs p.mean p.cov f.1 f.2.1 f.2.2
  marked : ∀ q, .picture q ∈ outs → ∃ w, q.markedWeights = some w ∧ Documented w p.mean p.cov 0 q.marked ∧
    q.assets = List.ofFn fun i => (Perf.fsqrt (p.cov i i), p.mean i)

theorem getLast?_snoc {α β : Type} (g : α → Option β) (l : List α) (x : α) :
    ((l ++ [x]).filterMap g).getLast? = (g x).or (l.filterMap g).getLast? := by
  rw [List.filterMap_append]
  cases h : g x <;> simp [h]

theorem runs_after (h : runs inv sharpe fuel o cs = some (o', outs)) {pre : List (Out n)} (a : After p pre o) :
    After p (pre ++ outs) o' := by
  induction cs generalizing o outs pre with
  | nil => cases h; simpa using a
  | cons c cs ih =>
    unfold runs at h
    cases hr : o.run inv sharpe fuel c with
    | none => rw [hr] at h; cases h
    | some r =>
      obtain ⟨o₁, x⟩ := r
      rw [hr] at h
      obtain ⟨⟨o₂, ys⟩, h₂, e⟩ := Option.map_eq_some_iff.1 h
      cases e
      have st := run_step hr
      have hp := a.data
      have key : After p (pre ++ [x]) o₁ := by
        refine ⟨st.data.trans hp, ?_, ?_, ?_, ?_⟩
        · rw [st.weights, a.weights, getLast?_snoc]
        · rw [st.frontier, a.frontier, getLast?_snoc]
        · intro y hy f hf
          rcases List.mem_append.1 hy with hy | hy
          · exact a.fits y hy f hf
          · obtain rfl := List.mem_singleton.1 hy
            have := st.fits
            rw [hp] at this
            refine this (fun f' hf' => ?_) f hf
            rw [a.frontier] at hf'
            have hm := List.mem_of_getLast? hf'
            obtain ⟨y, hy, hyf⟩ := List.mem_filterMap.1 hm
            exact a.fits y hy f' hyf
        · intro q hq
          rcases List.mem_append.1 hq with hq | hq
          · exact a.marked q hq
          · have := st.marked q (List.mem_singleton.1 hq).symm
            rw [hp] at this
            exact this
      have := ih h₂ key
      rwa [List.append_assoc] at this

theorem after_runs (h : runs inv sharpe fuel (fresh p) cs = some (o, outs)) : After p outs o := by
  have := runs_after h (pre := []) (p := p) ⟨rfl, rfl, rfl, nofun, nofun⟩
  simpa using this

/-- **C68**: after any calls, `portfolio_performance` reports the documented triple of the weights shown last,
computed from the data given to the constructor; calls that failed, frontiers and `set_weights` do not count. -/
theorem C68_performance (h : runs inv sharpe fuel (fresh p) cs = some (o, outs)) (rf : ℝ) {w : Fin n → ℝ}
    (hw : (outs.filterMap shown).getLast? = some w) :
    ∃ r, o.performance rf = .ok r ∧ Documented w p.mean p.cov rf r := by
  have a := after_runs h
  obtain ⟨r, h1, h2⟩ := performance_some (a.weights.trans hw) rf
  rw [a.data] at h2
  exact ⟨r, h1, h2⟩

/-- **C68**: before any weights have been shown it raises ValueError. -/
theorem C68_performance_none (h : runs inv sharpe fuel (fresh p) cs = some (o, outs)) (rf : ℝ)
    (hw : ∀ x ∈ outs, shown x = none) : o.performance rf = .error .valueError := by
  have a := after_runs h
  refine performance_none (a.weights.trans ?_) rf
  rw [List.filterMap_eq_nil_iff.2 hw]
  rfl

/-- **C68**: all frontiers ever shown consist of returns and volatilities of their weights, and `frontier_values` is the
one shown last. -/
theorem C68_frontier (h : runs inv sharpe fuel (fresh p) cs = some (o, outs)) :
    (∀ x ∈ outs, ∀ f, drawn x = some f → Belongs p.mean p.cov f.1 f.2.1 f.2.2) ∧
      o.frontier = (outs.filterMap drawn).getLast? :=
  ⟨(after_runs h).fits, (after_runs h).frontier⟩

/-! ### Order of calls -/

/-- The object can be solved: a first `min_volatility` returns weights. -/
def Solvable (inv : Cla.Inv ℝ) (fuel : ℕ) (p : Problem n ℝ) : Prop :=
  ∃ o w, (fresh p).minVolatility inv fuel = some (o, .weights w)

theorem solvable_solve (h : Solvable inv fuel p) :
    ∃ s, solve p inv fuel {} = some (s, .ok ()) ∧ s.w ≠ [] := by
  obtain ⟨o, w, h⟩ := h
  unfold Obj.minVolatility at h
  split at h
  · cases h
  · cases h
  rename_i s w' e
  have e : Cla.minVolatility p inv fuel {} = some (s, .ok w') := e
  unfold Cla.minVolatility at e
  rw [ensureSolved_fresh] at e
  split at e
  · cases e
  · cases e
  rename_i s₁ u hs
  have := (C18_solve p inv fuel s₁ hs).2.1
  exact ⟨s₁, hs, fun h0 => by rw [h0] at this; simp at this⟩

/-- The turning points of a solvable object. -/
def Known (s₀ : State n ℝ) (o : Obj n) : Prop := o.s = {} ∨ o.s = s₀

section known
variable {s₀ : State n ℝ} (hs : solve p inv fuel {} = some (s₀, .ok ())) (h0 : s₀.w ≠ [])
include hs h0

theorem ensure_known (hp : o.p = p) (k : Known s₀ o) : ensureSolved o.p inv fuel o.s = some (s₀, .ok ()) := by
  rw [hp]
  rcases k with k | k
  · rw [k, ensureSolved_fresh, hs]
  · rw [k]; unfold ensureSolved; rw [if_neg h0]

theorem maxSharpe_known (hp : o.p = p) (k : Known s₀ o) : ∃ w, o.maxSharpe inv sharpe fuel =
      some ({ o with s := s₀, weights := some w }, .weights w) ∧
    pickBest (fun a b => decide (a > b)) (srCandidates sharpe s₀.w) = .ok w := by
  have h2 := (C18_solve p inv fuel s₀ hs).2.1
  obtain ⟨w, hw⟩ : ∃ w, pickBest (fun a b => decide (a > b)) (srCandidates sharpe s₀.w) = .ok w := by
    rcases hl : s₀.w with _ | ⟨x, _ | ⟨y, l⟩⟩
    · rw [hl] at h2; simp at h2
    · rw [hl] at h2; simp at h2
    · exact ⟨_, rfl⟩
  refine ⟨w, ?_, hw⟩
  unfold Obj.maxSharpe Cla.maxSharpe
  rw [ensure_known hs h0 hp k]
  dsimp only
  rw [hw]

theorem minVolatility_known (hp : o.p = p) (k : Known s₀ o) : ∃ w, o.minVolatility inv fuel =
      some ({ o with s := s₀, weights := some w }, .weights w) ∧
    pickBest (fun a b => decide (a < b)) (s₀.w.map fun w => (w, variance p w)) = .ok w := by
  obtain ⟨w, hw⟩ : ∃ w, pickBest (fun a b => decide (a < b)) (s₀.w.map fun w => (w, variance p w)) = .ok w := by
    rcases hl : s₀.w with _ | ⟨x, l⟩
    · exact absurd hl h0
    · exact ⟨_, rfl⟩
  refine ⟨w, ?_, hw⟩
  unfold Obj.minVolatility Cla.minVolatility
  rw [ensure_known hs h0 hp k]
  dsimp only
  rw [hp, hw]

theorem efficientFrontier_known (hp : o.p = p) (k : Known s₀ o) (points : ℕ) : o.efficientFrontier inv fuel points =
      some ({ o with s := s₀, frontier := some (frontierOf p (frontierPoints (points / s₀.w.length) s₀.w)) },
        .frontier (frontierOf p (frontierPoints (points / s₀.w.length) s₀.w))) := by
  unfold Obj.efficientFrontier Cla.efficientFrontier
  rw [ensure_known hs h0 hp k]
  dsimp only
  rw [if_neg h0, hp]

theorem draw_known (hp : o.p = p) (k : Known s₀ o) {w : Fin n → ℝ} (hw : o.weights = some w) (points : ℕ) :
    ∃ o₁ q, o.draw inv fuel points = some (o₁, .picture q) ∧ Known s₀ o₁ ∧ q.markedWeights = some w ∧
      q.line = o.frontier.getD (frontierOf p (frontierPoints (points / s₀.w.length) s₀.w)) := by
  obtain ⟨r, hr, -⟩ := performance_some hw 0
  unfold Obj.draw
  rw [hr]
  dsimp only
  cases hf : o.frontier with
  | some f => exact ⟨_, _, rfl, k, hw, rfl⟩
  | none =>
    dsimp only
    rw [efficientFrontier_known hs h0 hp k]
    exact ⟨_, _, rfl, .inr rfl, hw, rfl⟩

theorem run_known (hp : o.p = p) (k : Known s₀ o) (c : Call) : ∃ o₁ x, o.run inv sharpe fuel c = some (o₁, x) ∧ Known s₀ o₁ := by
  cases c with
  | maxSharpe => obtain ⟨w, e, -⟩ := maxSharpe_known (sharpe := sharpe) hs h0 hp k; exact ⟨_, _, e, .inr rfl⟩
  | minVolatility => obtain ⟨w, e, -⟩ := minVolatility_known hs h0 hp k; exact ⟨_, _, e, .inr rfl⟩
  | efficientFrontier points => exact ⟨_, _, efficientFrontier_known hs h0 hp k points, .inr rfl⟩
  | setWeights => exact ⟨_, _, rfl, k⟩
  | plot points =>
    show ∃ o₁ x, o.plot inv sharpe fuel points = some (o₁, x) ∧ Known s₀ o₁
    unfold Obj.plot
    cases hw : o.weights with
    | some w =>
      obtain ⟨o₁, q, e, k₁, -⟩ := draw_known hs h0 hp k hw points
      exact ⟨_, _, e, k₁⟩
    | none =>
      obtain ⟨w, e, -⟩ := maxSharpe_known (sharpe := sharpe) hs h0 hp k
      rw [e]
      obtain ⟨o₁, q, e, k₁, -⟩ := draw_known (o := { o with s := s₀, weights := some w }) hs h0 hp (.inr rfl) rfl points
      exact ⟨_, _, e, k₁⟩

theorem runs_known (hp : o.p = p) (k : Known s₀ o) (cs : List Call) :
    ∃ o₁ xs, runs inv sharpe fuel o cs = some (o₁, xs) ∧ o₁.p = p ∧ Known s₀ o₁ := by
  induction cs generalizing o with
  | nil => exact ⟨o, [], rfl, hp, k⟩
  | cons c cs ih =>
    obtain ⟨o₁, x, e, k₁⟩ := run_known (sharpe := sharpe) hs h0 hp k c
    obtain ⟨o₂, xs, e₂, h₂⟩ := ih ((run_step e).data.trans hp) k₁
    exact ⟨o₂, x :: xs, by simp only [runs, e, e₂]; rfl, h₂⟩

end known

/-- The methods whose answer must not depend on earlier calls. -/
def Call.method : Call → Prop
  | .plot _ => False
  | _ => True

/-- **C68**: if the problem can be solved at all, every sequence of calls returns, and after any of them each method
answers what it answers on a new object. -/
theorem C68_order (hsol : Solvable inv fuel p) (cs : List Call) (c : Call) (hc : c.method) :
    ∃ o outs x o₁ o₂, runs inv sharpe fuel (fresh p) cs = some (o, outs) ∧ o.run inv sharpe fuel c = some (o₁, x) ∧
      (fresh p).run inv sharpe fuel c = some (o₂, x) := by
  obtain ⟨s₀, hs, h0⟩ := solvable_solve hsol
  obtain ⟨o, outs, hr, hp, k⟩ := runs_known (sharpe := sharpe) hs h0 (o := fresh p) rfl (.inl rfl) cs
  cases c with
  | maxSharpe =>
    obtain ⟨w, e, h1⟩ := maxSharpe_known (sharpe := sharpe) hs h0 hp k
    obtain ⟨w', e', h2⟩ := maxSharpe_known (sharpe := sharpe) hs h0 (o := fresh p) rfl (.inl rfl)
    rw [h1] at h2
    cases h2
    exact ⟨o, outs, _, _, _, hr, e, e'⟩
  | minVolatility =>
    obtain ⟨w, e, h1⟩ := minVolatility_known hs h0 hp k
    obtain ⟨w', e', h2⟩ := minVolatility_known hs h0 (o := fresh p) rfl (.inl rfl)
    rw [h1] at h2
    cases h2
    exact ⟨o, outs, _, _, _, hr, e, e'⟩
  | efficientFrontier points =>
    exact ⟨o, outs, _, _, _, hr, efficientFrontier_known hs h0 hp k points,
      efficientFrontier_known hs h0 (o := fresh p) rfl (.inl rfl) points⟩
  | setWeights => exact ⟨o, outs, _, _, _, hr, rfl, rfl⟩
  | plot _ => exact hc.elim

end Verif.ClaObj
