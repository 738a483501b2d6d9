import Verif.Proof.ConvexMarks
import Verif.Proof.Refused
import Mathlib.Logic.Relation

/-! Histories: attempts mark objects for ever, and sequences of targets. -/

noncomputable section

namespace Verif.Convex
open Verif.Py Verif.Base Matrix

variable {n : ℕ} {U : Uni n} {S : Solver n} {D : Data n} {cfg : Cfg n} {o : OState n} {h : Heap n}

theorem refuses_of_opt (ho : o.opt ≠ none) : Refuses U S D o h := by
  obtain ⟨p, hp⟩ := Option.ne_none_iff_exists'.1 ho
  refine ⟨fun r => ?_, fun r => ?_, fun sec lo up hne => ?_⟩
  · show (addObjective U r >>= fun _ => pure none) o h = _
    rw [none_run]
    unfold addObjective
    rw [bind_ok (a := o) (o' := o) (h' := h) rfl, hp]
    rfl
  · show (addConstraint U true r >>= fun _ => pure none) o h = _
    rw [none_run]
    have : addConstraint U true r o h = _ := bind_ok (a := o) (o' := o) (h' := h) rfl
    rw [this, hp]
    rfl
  · show (addSectorConstraints sec lo up >>= fun _ => pure none) o h = _
    rw [none_run]
    have e : addSectorConstraints sec lo up o h = (.error .instantiation, o, h) := by
      unfold addSectorConstraints
      by_cases h1 : up = []
      · rw [bind_ok (a := ()) (o' := o) (h' := h) (by rw [addSectors_solved _ _ _ hp, if_pos h1]),
          addSectors_solved _ _ _ hp, if_neg]
        exact hne.resolve_right (not_not.2 h1)
      · exact bind_err (by rw [addSectors_solved _ _ _ hp, if_neg h1])
    rw [e]; rfl

/-! ### At most one solver call in `_max_return` -/

def One {α : Type} (x : M n α) : Prop := ∀ o h, (x o h).2.2.log.length ≤ h.log.length + 1

theorem One.after {α β : Type} {x : M n α} {f : α → M n β} (hx : Logless x) (hf : ∀ a, One (f a)) :
    One (x >>= f) := by
  intro o h
  have h1 := hx o h
  rw [bind_run]
  rcases hr : x o h with ⟨r, o', h'⟩
  rw [hr] at h1
  dsimp only at h1
  cases r with
  | error e =>
    show h'.log.length ≤ _
    rw [h1]; exact Nat.le_succ _
  | ok a =>
    have := hf a o' h'
    rw [h1] at this
    exact this

theorem One.before {α β : Type} {x : M n α} {f : α → M n β} (hx : One x) (hf : ∀ a, Logless (f a)) :
    One (x >>= f) := by
  intro o h
  have h1 := hx o h
  rw [bind_run]
  rcases hr : x o h with ⟨r, o', h'⟩
  rw [hr] at h1
  cases r with
  | error e => exact h1
  | ok a => exact (congrArg List.length (hf a o' h')).le.trans h1

theorem one_solve : One (solve S) := by
  have call : ∀ p (o : OState n) h, (callSolver S p o h).2.2.log.length ≤ h.log.length + 1 := by
    intro p o h
    obtain ⟨w, vals, e, -, -⟩ := callSolver_run (S := S) p o h
    rw [e]; simp
  intro o h
  unfold solve
  rw [bind_ok (a := o) (o' := o) (h' := h) rfl]
  cases ho : o.opt with
  | none =>
    cases hob : o.objective with
    | none => exact Nat.le_succ _
    | some ob =>
      dsimp only
      by_cases hc : ¬ ob.body.scalar = true ∨ ¬ usable o.cons
      · rw [if_pos hc]; exact Nat.le_succ _
      · rw [if_neg hc]
        cases idsOf o.cons with
        | error e => exact Nat.le_succ _
        | ok ids => exact call _ _ _
  | some p =>
    cases hob : o.objective with
    | none => exact Nat.le_succ _
    | some ob =>
      dsimp only
      by_cases hc : ob.id ≠ p.initObj
      · rw [if_pos hc]; exact Nat.le_succ _
      · rw [if_neg hc]
        cases hi : idsOf o.cons with
        | error e => exact Nat.le_succ _
        | ok ids =>
          rw [bind_ok (a := ids) (o' := o) (h' := h) rfl]
          cases p.initCons with
          | none => exact Nat.le_succ _
          | some ini =>
            dsimp only
            split
            · exact Nat.le_succ _
            · exact call _ _ _

theorem one_maxReturn : One (maxReturn S D) := by
  unfold maxReturn
  split
  · exact fun _ _ => Nat.le_succ _
  · refine .after (.returnExpr _) fun _ => .after (.setObjective _ _) fun _ => .after (.addLib _ _) fun _ =>
      .after (fun _ _ => rfl) fun k => .before one_solve fun _ o h => ?_
    unfold negValue
    split
    · rfl
    · split <;> rfl

theorem one_checkMax (t : ℝ) : One (checkMaxReturn S D t) := by
  have oc : One (maxReturnOfCopy S D) := fun o h => one_maxReturn o h
  unfold checkMaxReturn
  refine .after .get fun o => .before ?_ fun _ => .bind (.modify _) fun _ => .ite (.raise _) (.pure _)
  split
  · split
    · exact oc
    · exact fun _ _ => Nat.le_succ _
  · exact oc

/-- What an attempt leaves behind. -/
theorem attempted_marks {c : Call n} (ha : Attempted D c o h (run U S D c o h)) :
    (run U S D c o h).2.1.opt ≠ none := by
  have co := call_opts (U := U) (S := S) (D := D) c
  have nonef : (∀ f t mn, D.kind = .ef → c ≠ .efficientReturn f t mn) → (run U S D c o h).2.2.log ≠ h.log →
      (run U S D c o h).2.1.opt ≠ none := fun hn hl => (co.marks hn o h).resolve_left hl
  have hne : ∀ {a b : List (Prob n)}, b.length + 1 < a.length → a ≠ b := by
    rintro a b hl rfl
    omega
  by_cases hn : ∀ f t mn, D.kind = .ef → c ≠ .efficientReturn f t mn
  · rcases ha with ⟨w, hw, hnc⟩ | ⟨hl, -⟩ | hl
    · exact (co.stops hnc o h w hw).1
    · exact nonef hn hl
    · exact nonef hn (hne hl)
  · rcases ha with ⟨w, hw, hnc⟩ | ha
    · exact (co.stops hnc o h w hw).1
    simp only [not_forall, not_not] at hn
    obtain ⟨f, t, mn, hk, rfl⟩ := hn
    have hx : run U S D (.efficientReturn f t mn) = (efficientReturn S D f t mn >>= fun w => pure (some w)) := by
      simp only [run, hk]
    rw [hx, some_run] at ha ⊢
    dsimp only at ha ⊢
    unfold efficientReturn at ha ⊢
    by_cases hf : (!f) = true
    · rw [if_pos hf] at ha
      rcases ha with ⟨hl, -⟩ | hl
      · exact absurd rfl hl
      · exact absurd rfl (hne hl)
    simp only [if_neg hf] at ha ⊢
    have h1 := one_checkMax (S := S) (D := D) t o h
    rw [bind_run] at ha ⊢
    rcases hr : checkMaxReturn S D t o h with ⟨r, o', h'⟩
    rw [hr] at h1 ha
    dsimp only at h1
    have hmark : Marks (withParameter S "target_return" mn t (do
        let v ← varianceExpr D
        setObjective [] (fun e => (v e.asg : EReal))
        let r ← returnExpr D false
        addAll
        let p ← newPar "target_return" t false
        addLib (.ineq 1 (ofPar p) (scalar r))
        makeWeightSum mn)) := by marks
    -- the solver was not called by the check, or it was called again
    have hlog : ∀ m, o.maxRet = some m → m ≠ 0 → h'.log = h.log := by
      intro m hm h0
      have := checkMax_cached (S := S) (D := D) (h := h) hm h0 t
      rw [hr] at this
      split at this <;> cases this <;> rfl
    cases r with
    | error e =>
      exfalso
      rcases ha with ⟨hl, hc⟩ | hl
      · rcases hc with hc | ⟨m, hm, h0⟩
        · exact hc f t mn hk rfl
        · exact hl (hlog m hm h0)
      · change h.log.length + 1 < h'.log.length at hl
        omega
    | ok u =>
      dsimp only at ha ⊢
      refine (hmark o' h').resolve_left fun he => ?_
      rw [he] at ha
      rcases ha with ⟨hl, hc⟩ | hl
      · rcases hc with hc | ⟨m, hm, h0⟩
        · exact hc f t mn hk rfl
        · exact hl (hlog m hm h0)
      · omega

/-- A stored problem is never replaced. -/
theorem step_keeps {W W' : World n} (hs : Step U S D W W') {j : ℕ} {p : Opt n}
    (hj : ∃ cfg o, W.objs[j]? = some (cfg, o) ∧ o.opt = some p) :
    ∃ cfg o, W'.objs[j]? = some (cfg, o) ∧ o.opt = some p := by
  obtain ⟨cfg, o, hj, hp⟩ := hj
  cases hs with
  | call hi c =>
    rename_i i cfg' o'
    dsimp only
    by_cases e : i = j
    · subst e
      rw [hj] at hi
      cases hi
      refine ⟨_, _, List.getElem?_set_self (List.getElem?_eq_some_iff.1 hj).1, ?_⟩
      exact (keeps_run c false (.inr rfl) o W.heap).opt p hp
    · exact ⟨cfg, o, by rw [List.getElem?_set_ne e]; exact hj, hp⟩
  | copy hi =>
    refine ⟨cfg, o, ?_, hp⟩
    dsimp only
    rw [List.getElem?_append_left (List.getElem?_eq_some_iff.1 hj).1]
    exact hj

theorem steps_keep {W W' : World n} (hs : Relation.ReflTransGen (Step U S D) W W') {j : ℕ} {p : Opt n}
    (hj : ∃ cfg o, W.objs[j]? = some (cfg, o) ∧ o.opt = some p) :
    ∃ cfg o, W'.objs[j]? = some (cfg, o) ∧ o.opt = some p := by
  induction hs with
  | refl => exact hj
  | tail _ h ih => exact step_keeps h ih

/-! ### Sequences of targets -/

theorem after_method {c : Call n} {k : Kind} (hp : (pname k c).isSome = true) (cfg : Cfg n) (b : Bool) :
    cfg.after b c = cfg := by
  cases c <;> first | rfl | simp [pname] at hp

theorem Retargets.reachable {j : ℕ} {c₀ : Call n} {W W' : World n} (hW : Reachable U S D W)
    (hr : Retargets U S D j c₀ W W') : Reachable U S D W' := by
  induction hr with
  | refl => exact hW
  | call _ hj c _ _ ih => exact .step ih (.call hj c)
  | idle _ hj c _ ih => exact .step ih (.call hj c)
  | other _ hs _ ih => exact .step ih hs

theorem step_mono (hU : Usable U D) {W W' : World n} (hW : Reachable U S D W) (hs : Step U S D W W') :
    W.heap.nextId ≤ W'.heap.nextId := by
  cases hs with
  | call hi c =>
    obtain ⟨g, hm⟩ := good_of_reachable hU hW _ (List.mem_of_getElem? hi)
    exact (run_post hU g hm c).mono
  | copy hi => exact le_rfl

theorem Live.reweigh {c : Call n} (l : Live U D cfg o h c) (w : Option (Fin n → ℝ)) {h' : Heap n}
    (hh : h.nextId ≤ h'.nextId) : Live U D cfg { o with weights := w } h' c := by
  obtain ⟨p, v, nm, a, l⟩ := l
  have s := l.solved.mono hh
  exact ⟨p, v, nm, a, ⟨s.opt, s.added, s.initObj, s.initCons, s.properP, s.properO, s.objective, s.cons, s.idObj,
    s.ids, s.origin⟩, l.obj, l.cons, l.name, l.par, l.neutral, l.req⟩

/-- The object is still unoptimised, or its problem is that of the method. -/
theorem retargets_current (hU : Usable U D) {j : ℕ} {c₀ : Call n} {W W' : World n} (hW : Reachable U S D W)
    (hp : (pname D.kind c₀).isSome = true) (hj : W.objs[j]? = some (cfg, o)) (ho : o.opt = none)
    (hr : Retargets U S D j c₀ W W') :
    W.heap.nextId ≤ W'.heap.nextId ∧
      ∃ o', W'.objs[j]? = some (cfg, o') ∧ Current U D cfg o' W'.heap c₀ := by
  induction hr with
  | refl => exact ⟨le_rfl, o, hj, .inl ho⟩
  | call hr' hj' c hs hn ih =>
    rename_i W₁ cfg₁ o₁
    obtain ⟨hle, o', hj'', cu⟩ := ih
    rw [hj'] at hj''
    cases hj''
    have hR := hr'.reachable hW
    obtain ⟨g, hm⟩ := good_of_reachable hU hR _ (List.mem_of_getElem? hj')
    refine ⟨hle.trans (run_post hU g hm c).mono, _, ?_, current_step hU g hm hp hs hn cu⟩
    dsimp only
    rw [List.getElem?_set_self (List.getElem?_eq_some_iff.1 hj').1, after_method (by rw [pname_same hs]; exact hp)]
  | idle hr' hj' c hi ih =>
    rename_i W₁ cfg₁ o₁
    obtain ⟨hle, o', hj'', cu⟩ := ih
    rw [hj'] at hj''
    cases hj''
    obtain ⟨⟨w, e1⟩, e2⟩ := idle_run hi
    refine ⟨hle.trans e2.ge, (run U S D c o₁ W₁.heap).2.1, ?_, ?_⟩
    · dsimp only
      rw [List.getElem?_set_self (List.getElem?_eq_some_iff.1 hj').1, idle_cfg hi]
    · dsimp only
      rw [e1]
      exact cu.imp id fun l => l.reweigh w e2.ge
  | other hr' hs hj' ih =>
    rename_i W₁ W₂
    obtain ⟨hle, o', hj'', cu⟩ := ih
    have hm := step_mono hU (hr'.reachable hW) hs
    exact ⟨hle.trans hm, o', hj'.trans hj'', cu.imp id fun l => l.keep (.inl rfl) hm⟩

/-- Changing neutrality. -/
theorem live_change {c₀ c : Call n} (l : Live U D cfg o h c₀) (hs : SameMethod c₀ c) (hn : c.neutral ≠ c₀.neutral)
    (ha : Accepts D c) (hne : (∀ f t mn, D.kind = .ef → c ≠ .efficientReturn f t mn) ∨
      ∃ m, o.maxRet = some m ∧ m ≠ 0 ∧ ∀ f t mn, c = .efficientReturn f t mn → t ≤ m) :
    run U S D c o h = (.error .instantiation, o, h) := by
  have hmn : mnOf c ≠ mnOf c₀ := by
    cases c₀ <;> cases c <;> simp_all [SameMethod, mnOf, Call.neutral]
  have hnm : ∃ nm, pname D.kind c₀ = some nm := by obtain ⟨p, v, nm, a, l⟩ := l; exact ⟨nm, l.name⟩
  obtain ⟨nm, hnm⟩ := hnm
  have hnm' : pname D.kind c = some nm := (pname_same hs).trans hnm
  obtain ⟨mu, hmu⟩ := l.mu
  cases c with
  | maxUtility r mn =>
    have hr : ¬ r ≤ 0 := not_le.2 ha
    cases hk : D.kind with
    | ef =>
      refine some_err (x := maxUtility S D r mn) (by simp only [run, hk]) ?_
      unfold maxUtility; rw [if_neg hr]
      exact live_neutral l (by rw [hnm, ← hnm', hk]; rfl) hmn
    | semi =>
      refine some_err (x := semiUtility S D r mn) (by simp only [run, hk]) ?_
      unfold semiUtility; rw [if_neg hr]
      exact live_neutral l (by rw [hnm, ← hnm', hk]; rfl) hmn
    | _ => simp [pname, hk] at hnm'
  | efficientRisk t mn =>
    cases hk : D.kind with
    | ef =>
      have ha : 0 ≤ t ∧ ¬ numLt t (globalMinVol D) := by simpa only [Accepts, hk] using ha
      refine some_err (x := efficientRisk S D t mn) (by simp only [run, hk]) ?_
      unfold efficientRisk
      rw [if_neg (not_lt.2 ha.1), if_neg ha.2]
      exact live_neutral l (by rw [hnm, ← hnm', hk]; rfl) hmn
    | cvar =>
      refine some_err (x := cvarRisk S D t mn) (by simp only [run, hk]) ?_
      exact live_neutral l (by rw [hnm, ← hnm', hk]; rfl) hmn
    | cdar =>
      refine some_err (x := cdarRisk S D t mn) (by simp only [run, hk]) ?_
      exact live_neutral l (by rw [hnm, ← hnm', hk]; rfl) hmn
    | semi =>
      refine some_err (x := semiRisk S D t mn) (by simp only [run, hk]) ?_
      exact live_neutral l (by rw [hnm, ← hnm', hk]; rfl) hmn
  | efficientReturn f t mn =>
    cases hk : D.kind with
    | ef =>
      have ha : f = true := by simpa only [Accepts, hk] using ha
      subst ha
      rcases hne with hne | ⟨m, hm, h0, ht⟩
      · exact absurd rfl (hne _ _ _ hk)
      refine some_err (x := efficientReturn S D true t mn) (by simp only [run, hk]) ?_
      have e := checkMax_cached (S := S) (D := D) (h := h) hm h0 t
      rw [if_neg (not_lt.2 (ht _ _ _ rfl))] at e
      exact (bind_ok e).trans (live_neutral l (by rw [hnm, ← hnm', hk]; rfl) hmn)
    | cvar =>
      refine some_err (x := cvarReturn S D t mn) (by simp only [run, hk]) ?_
      exact live_neutral l (by rw [hnm, ← hnm', hk]; rfl) hmn
    | cdar =>
      refine some_err (x := cdarReturn S D t mn) (by simp only [run, hk]) ?_
      exact live_neutral l (by rw [hnm, ← hnm', hk]; rfl) hmn
    | semi =>
      have ha : f = true ∧ 0 ≤ t ∧ ∃ mu, D.mu = some mu ∧ ∃ i, t ≤ |mu i| := by simpa only [Accepts, hk] using ha
      obtain ⟨rfl, h0, mu', hmu', i, hi⟩ := ha
      refine some_err (x := semiReturn S D true t mn) (by simp only [run, hk]) ?_
      unfold semiReturn
      rw [if_neg (by simp [h0]), hmu']
      dsimp only
      rw [if_neg (fun hall => absurd (hall i) (not_lt.2 hi))]
      exact live_neutral l (by rw [hnm, ← hnm', hk]; rfl) hmn
  | _ => simp [pname] at hnm'

end Verif.Convex
