import Verif.Proof.ConvexReturn

/-! First calls of `max_sharpe` reach the solver. -/

noncomputable section

namespace Verif.Convex
open Verif.Py Verif.Base Matrix

variable {n : ℕ} {U : Uni n} {S : Solver n} {D : Data n} {cfg : Cfg n} {o : OState n} {h : Heap n}

/-- Inequalities and equalities. -/
def Comparison {π ε : Type} (c : ConBody π ε) : Prop := (∃ m a b, c = .ineq m a b) ∨ ∃ m a b, c = .eq m a b

theorem rebuild_comparison {c : ConBody Par (Env n)} (k : ℕ) (h : Comparison c) : ∃ b, rebuildBody k c = .ok b := by
  rcases h with ⟨m, a, b, rfl⟩ | ⟨m, a, b, rfl⟩
  · unfold rebuildBody
    dsimp only
    split
    · exact ⟨_, rfl⟩
    · exact ⟨_, rfl⟩
  · exact ⟨_, rfl⟩

theorem rebuildAll_ok (k : ℕ) (l : List (Con n)) (hl : ∀ c ∈ l, Comparison c.body) (o : OState n) (h : Heap n) :
    ∃ new i, rebuildAll k l o h = (.ok new, o, { h with nextId := i }) ∧ ∀ c ∈ new, Proper c.body := by
  induction l generalizing h with
  | nil => exact ⟨[], h.nextId, rfl, by simp⟩
  | cons c l ih =>
    rw [List.forall_mem_cons] at hl
    obtain ⟨b, hb⟩ := rebuild_comparison k hl.1
    obtain ⟨new, i, e, hn⟩ := ih hl.2 { h with nextId := h.nextId + 1 }
    unfold rebuildAll
    rw [hb]
    rw [bind_ok (a := b) (o' := o) (h' := h) rfl]
    rw [bind_ok (a := Ref.lib h.nextId) (o' := o) (h' := { h with nextId := h.nextId + 1 }) rfl, bind_ok e]
    refine ⟨_, i, rfl, ?_⟩
    rw [List.forall_mem_cons]
    exact ⟨rebuild_proper hb, hn⟩

theorem base_comparison {ex : List (Piece n)} (b : Base U cfg o h ex) (hx : ex = [])
    (hc : ∀ i, Added.usr i ∈ cfg.cons → Comparison (U.con i)) : ∀ c ∈ o.cons, Comparison c.body := by
  subst hx
  obtain ⟨b₁, b₂, us, es, c1, c2, c3, c4, c5⟩ := b.cons
  cases c5
  rw [c1]
  intro c hm
  simp only [List.append_nil, List.mem_cons] at hm
  rcases hm with rfl | rfl | hm
  · rw [c2.2.1]; exact .inl ⟨_, _, _, rfl⟩
  · rw [c3.2.1]; exact .inl ⟨_, _, _, rfl⟩
  · obtain ⟨a, ha, hma⟩ : ∃ a ∈ cfg.cons, Matches U c a := by
      clear c1 hc
      generalize cfg.cons = as at c4
      induction c4 with
      | nil => cases hm
      | cons h1 _ ih =>
        rcases List.mem_cons.1 hm with rfl | hm
        · exact ⟨_, List.mem_cons_self, h1⟩
        · obtain ⟨a, ha, hb⟩ := ih hm
          exact ⟨a, List.mem_cons_of_mem _ ha, hb⟩
    cases a with
    | usr i =>
      have : c = U.mkCon i := hma
      subst this
      rcases hc i ha with ⟨m, x, y, e⟩ | ⟨m, x, y, e⟩
      · exact .inl ⟨_, _, _, by unfold Uni.mkCon; rw [e]; rfl⟩
      · exact .inr ⟨_, _, _, by unfold Uni.mkCon; rw [e]; rfl⟩
    | sector sec nm up b =>
      obtain ⟨k, rfl⟩ := hma
      cases up
      · exact .inl ⟨_, _, _, rfl⟩
      · exact .inl ⟨_, _, _, rfl⟩

/-- On an object not yet optimised, with complete data and constraints that can be rebuilt, `max_sharpe` gives the
solver the transformed problem and returns its scaled solution. -/
theorem sharpe_reaches (hU : Usable U D) (hk : D.kind = .ef) (hsym : D.symOk = true) {mu : Fin n → ℝ}
    (hmu : D.mu = some mu) {rf : ℝ} (hr : ∃ i, rf < mu i) (g : Good U D cfg o h) (hm : MaxOk U S D cfg o)
    (ho : o.opt = none) (hc : ∀ i, Added.usr i ∈ cfg.cons → Comparison (U.con i)) :
    ∃ v, (run U S D (.maxSharpe rf) o h).1 = (outcomeF (fun s i => s.w i / s.lib v 0)
        (S h.log.length (sharpeProb U cfg D.cov mu rf v h.upar))).map some ∧
      (run U S D (.maxSharpe rf) o h).2.2.log = h.log ++ [sharpeProb U cfg D.cov mu rf v h.upar] := by
  have hl : (run U S D (.maxSharpe rf) o h).2.2.log ≠ h.log := by
    have e : run U S D (.maxSharpe rf) o h =
        ((maxSharpe S D rf o h).1.map some, (maxSharpe S D rf o h).2.1, (maxSharpe S D rf o h).2.2) := by
      simp only [run, hk]; exact some_run _ _ _
    rw [e]
    show (maxSharpe S D rf o h).2.2.log ≠ h.log
    rw [maxSharpe_eq hmu rf (by push Not; exact hr)]
    rcases g with ⟨b, hob⟩ | ⟨p, s⟩
    swap
    · rw [s.opt] at ho; cases ho
    have hrun : Runs false true (sharpeHead D rf) :=
      .bind (.modify fun o r => ⟨r.opt, r.proper, r.added, r.obj⟩) fun _ => .bind (.varianceExpr hsym) fun _ =>
        .bind (.setObjective _ _) fun _ => .bind .freshVar fun _ => .bind .addAll fun _ => .pure _
    obtain ⟨k, o₁, h₁, e1, r1, l1⟩ := hrun o h (b.rdy hU)
    rcases tri_sharpeHead hU rf o h (mid₀ b hob) with ⟨k', o₁', h₁', e1', rfl, m⟩ | ⟨e, o₁', h₁', e1', fl⟩
    swap
    · rw [e1] at e1'; cases e1'
    rw [e1] at e1'
    cases e1'
    obtain ⟨new, i, e2, hp⟩ := rebuildAll_ok h.nextVar o₁.cons (base_comparison m.base rfl hc) o₁ h₁
    rw [bind_ok e1, bind_ok (a := o₁) (o' := o₁) (h' := h₁) rfl, bind_ok e2]
    let o₂ : OState n := { o₁ with cons := sharpeCons mu rf h.nextVar i ++ new }
    let h₂ : Heap n := { h₁ with nextId := i + 3 }
    rw [bind_ok (a := ()) (o' := o₂) (h' := h₂) rfl]
    have hprop : ∀ c ∈ o₂.cons, Proper c.body := by
      intro c hc
      rcases List.mem_append.1 hc with hc | hc
      · exact sharpeCons_proper _ _ _ _ c hc
      · exact hp c hc
    obtain ⟨ob, k1, k4⟩ := r1.obj rfl
    have hsolve := solve_fresh (S := S) (o := o₂) (h := h₂) r1.opt k1 k4 hprop
    obtain ⟨w, vals, hcs, -, -⟩ := callSolver_run (S := S) (optOf ob o₂.cons)
      { o₂ with opt := some (optOf ob o₂.cons) } h₂
    rw [hcs] at hsolve
    have hfin : ∀ (o' : OState n) (h' : Heap n), (rescale h.nextVar o' h').2.2.log = h'.log := by
      intro o' h'
      unfold rescale
      cases h'.vals <;> rfl
    have hne : h₁.log ++ [(optOf ob o₂.cons).prob h₂] ≠ h.log := by rw [l1]; simp
    cases hout : outcome (S h₂.log.length ((optOf ob o₂.cons).prob h₂)) with
    | error e =>
      rw [hout] at hsolve
      rw [bind_err hsolve]
      exact hne
    | ok w' =>
      rw [hout] at hsolve
      rw [bind_ok hsolve, hfin]
      exact hne
  obtain ⟨pre, h1, ⟨h2, -⟩ | ⟨P, f, h2, h3, h4⟩⟩ := (run_post (S := S) hU g hm (.maxSharpe rf)).res
  · rcases h1 with rfl | ⟨_, _, _, _, _, _, hcc, _⟩
    · rw [List.append_nil] at h2
      exact absurd h2 hl
    · cases hcc
  · rcases h1 with rfl | ⟨_, _, _, _, _, _, hcc, _⟩
    · cases h2 with
      | ask v q hq => cases hq
      | sharpe rf' mu' v hcall hk' hmu' =>
        cases hcall
        rw [hmu] at hmu'
        cases hmu'
        rw [List.append_nil] at h3 h4
        exact ⟨v, h3, h4⟩
      | convex i b b' hcall => cases hcall
    · cases hcc

end Verif.Convex
