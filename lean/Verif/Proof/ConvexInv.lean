import Verif.Proof.ConvexBuild

/-! The invariant of optimizer objects and the solving step. -/

noncomputable section

namespace Verif.Convex
open Verif.Py Verif.Base

variable {n : ℕ} {U : Uni n} {S : Solver n} {D : Data n}

/-- What `_solve_cvxpy_opt_problem` makes of the solver's answer. -/
def outcome : Answer n → Except PyErr (Fin n → ℝ)
  | .optimal s _ => .ok (round16 s.w)
  | .status _ => .error .optimization
  | .raised .typeError => .error .optimization
  | .raised .dcp => .error .optimization
  | .raised e => .error e

theorem outcome_ok {a : Answer n} {w : Fin n → ℝ} (h : outcome a = .ok w) :
    ∃ s v, a = .optimal s v ∧ w = round16 s.w := by
  cases a with
  | optimal s v => exact ⟨s, v, rfl, (Except.ok.inj h).symm⟩
  | status s => cases h
  | raised e => cases e <;> cases h

theorem callSolver_run (p : Opt n) (o : OState n) (h : Heap n) :
    ∃ w vals, callSolver S p o h = (outcome (S h.log.length (p.prob h)), { o with weights := w },
        { h with log := h.log ++ [p.prob h], vals := vals }) ∧
      (∀ s x, S h.log.length (p.prob h) = .optimal s x → vals = some s ∧ w = some (round16 s.w)) ∧
      ((∀ s x, S h.log.length (p.prob h) ≠ .optimal s x) → w = o.weights) := by
  unfold callSolver
  dsimp only
  cases S h.log.length (p.prob h) with
  | optimal s v =>
    refine ⟨_, _, rfl, ?_, fun hn => absurd rfl (hn s v)⟩
    intro s' x' e
    cases e
    exact ⟨rfl, rfl⟩
  | status s => exact ⟨o.weights, _, rfl, nofun, fun _ => rfl⟩
  | raised e => cases e <;> exact ⟨o.weights, h.vals, rfl, nofun, fun _ => rfl⟩

theorem idsOf_proper (l : List (Con n)) (h : ∀ c ∈ l, Proper c.body) :
    idsOf l = .ok (l.map Con.id) := by
  induction l with
  | nil => rfl
  | cons c l ih =>
    rw [List.forall_mem_cons] at h
    unfold idsOf
    rw [ih h.2]
    cases hb : c.body with
    | bool b => exact absurd hb (h.1.1 b)
    | _ => rfl

theorem usable_proper (l : List (Con n)) (h : ∀ c ∈ l, Proper c.body) : usable l :=
  fun c hc => (h c hc).2

theorem sameIds_refl (a : List Ref) : sameIds a a = true := by
  simp [sameIds]

theorem sameIds_false {a b : List Ref} {x : Ref} (ha : x ∈ a) (hb : x ∉ b) : sameIds a b = false := by
  have : a.all (· ∈ b) = false := by
    rw [List.all_eq_false]
    exact ⟨x, ha, by simpa using hb⟩
  simp [sameIds, this]

/-! ### Families of requests -/

/-- Market neutrality of a request. -/
def mnOf : Call n → Bool
  | .maxUtility _ mn => mn
  | .efficientRisk _ mn => mn
  | .efficientReturn _ _ mn => mn
  | .minCvar mn => mn
  | .minCdar mn => mn
  | .minSemi mn => mn
  | _ => false

/-- The value the parameter of a target method gets. -/
def parVal (D : Data n) : Call n → ℝ
  | .maxUtility r _ => r
  | .efficientRisk t _ =>
    match D.kind with
    | .ef => t ^ 2
    | .semi => t ^ 2
    | _ => t
  | .efficientReturn _ t _ => t
  | _ => 0

open Matrix in
/-- The request as a function of the parameter value. -/
def fam (D : Data n) (v : ℕ) (c : Call n) (x : ℝ) : Option (Ask n) :=
  match c with
  | .maxUtility _ mn => ask D v (.maxUtility x mn)
  | .efficientRisk _ mn =>
    match D.kind, D.mu with
    | .ef, some mu => some ⟨fun s => -(s.w ⬝ᵥ mu), fun s => s.w ⬝ᵥ D.cov *ᵥ s.w ≤ x, mn⟩
    | .semi, some mu =>
      some ⟨fun s => -(s.w ⬝ᵥ mu), fun s => D.freq * semiOf D v s ≤ x ∧ SemiVars D v s, mn⟩
    | _, _ => ask D v (.efficientRisk x mn)
  | .efficientReturn f _ mn => ask D v (.efficientReturn f x mn)
  | c => ask D v c

theorem fam_parVal (D : Data n) (v : ℕ) (c : Call n) : fam D v c (parVal D c) = ask D v c := by
  cases c with
  | efficientRisk t mn =>
    cases hk : D.kind <;> cases hm : D.mu <;> simp [fam, parVal, ask, hk, hm]
  | _ => rfl

theorem fam_congr {D : Data n} {v : ℕ} {c c' : Call n} {nm : String} (h : pname D.kind c = some nm)
    (h' : pname D.kind c' = some nm) (hm : mnOf c = mnOf c') : fam D v c = fam D v c' := by
  funext x
  cases hk : D.kind <;> rw [hk] at h h' <;> cases c <;> cases c' <;>
    simp [pname] at h h' <;>
    first
      | (subst h; exact absurd h' (by decide))
      | (simp only [mnOf] at hm; subst hm; simp only [fam, ask, hk])

/-- Whether the parameter of a target method rejects negative values. -/
def nnOf (D : Data n) : Call n → Bool
  | .maxUtility _ _ => true
  | .efficientRisk _ _ => true
  | .efficientReturn _ _ _ => D.kind = .cdar
  | _ => false

theorem nnOf_congr {D : Data n} {c c' : Call n} {nm : String} (h : pname D.kind c = some nm)
    (h' : pname D.kind c' = some nm) : nnOf D c = nnOf D c' := by
  cases hk : D.kind <;> rw [hk] at h h' <;> cases c <;> cases c' <;>
    simp [pname] at h h' <;>
    first
      | (subst h; exact absurd h' (by decide))
      | simp only [nnOf, hk]

theorem pname_mem {k : Kind} {c : Call n} {nm : String} (h : pname k c = some nm) : nm ∈ libNames := by
  cases c <;> cases k <;> simp_all [pname, libNames] <;> subst h <;> simp

/-! ### The invariant -/

def Opt.pars (p : Opt n) : List Par := p.cons.flatMap (fun c => conPars c.body) ++ p.obj.body.params

/-- Which call created the problem: one that cannot be repeated, `convex_objective` without additional
objectives, or a target method. -/
inductive Origin (U : Uni n) (D : Data n) (cfg : Cfg n) (p : Opt n) (neutral : Option Bool) : Prop
  | once (k : ℕ) (hid : p.obj.id = .lib k) (hp : libPars p.pars = [])
  | convex (i : ℕ) (b : Bool) (hid : p.obj = U.mkObj i) (hp : libPars p.pars = [])
      (hd : ∀ h, p.prob h = docConvex U cfg h.upar i b)
  | target (c : Call n) (v : ℕ) (nm : String) (nn : Bool) (a k : ℕ) (hid : p.obj.id = .lib k)
      (hc : pname D.kind c = some nm) (hnn : nn = nnOf D c) (hp : libPars p.pars = [⟨nm, nn, .lib a⟩])
      (hn : neutral = some (mnOf c))
      (hd : ∀ h, ∃ q, fam D v c (h.lpar a) = some q ∧ p.prob h = doc U cfg h.upar q)

/-- After the first solve. -/
structure Solved (U : Uni n) (D : Data n) (cfg : Cfg n) (o : OState n) (h : Heap n) (p : Opt n) : Prop where
  opt : o.opt = some p
  added : o.added = cfg.objs.map U.mkObj
  initObj : p.initObj = p.obj.id
  initCons : p.initCons = some (p.cons.map Con.id)
  properP : ∀ c ∈ p.cons, Proper c.body
  properO : ∀ c ∈ o.cons, Proper c.body
  objective : o.objective = some p.obj ∨ ∃ ob, o.objective = some ob ∧ ob.id ≠ p.obj.id
  cons : o.cons = p.cons ∨ ∃ c ∈ o.cons, c.id ∉ p.cons.map Con.id
  idObj : idLt h.nextId p.obj.id
  ids : ∀ c ∈ p.cons, idLt h.nextId c.id
  origin : Origin U D cfg p o.neutral

/-- The problem of the target method `c` is the current one, so that a new target can be set. -/
structure LiveAt (U : Uni n) (D : Data n) (cfg : Cfg n) (o : OState n) (h : Heap n) (c : Call n) (p : Opt n)
    (v : ℕ) (nm : String) (a : ℕ) : Prop where
  solved : Solved U D cfg o h p
  obj : o.objective = some p.obj
  cons : o.cons = p.cons
  name : pname D.kind c = some nm
  par : libPars p.pars = [⟨nm, nnOf D c, .lib a⟩]
  neutral : o.neutral = some (mnOf c)
  req : ∀ h, ∃ q, fam D v c (h.lpar a) = some q ∧ p.prob h = doc U cfg h.upar q

def Live (U : Uni n) (D : Data n) (cfg : Cfg n) (o : OState n) (h : Heap n) (c : Call n) : Prop :=
  ∃ p v nm a, LiveAt U D cfg o h c p v nm a

/-- The invariant of one object. -/
def Good (U : Uni n) (D : Data n) (cfg : Cfg n) (o : OState n) (h : Heap n) : Prop :=
  (Base U cfg o h [] ∧ ∀ ob, o.objective = some ob → libPars ob.body.params = []) ∨
    ∃ p, Solved U D cfg o h p

theorem Solved.mono {cfg : Cfg n} {o : OState n} {h h' : Heap n} {p : Opt n} (s : Solved U D cfg o h p)
    (hh : h.nextId ≤ h'.nextId) : Solved U D cfg o h' p :=
  { s with idObj := s.idObj.mono hh, ids := fun c hc => (s.ids c hc).mono hh }

theorem Good.mono {cfg : Cfg n} {o : OState n} {h h' : Heap n} (g : Good U D cfg o h)
    (hh : h.nextId ≤ h'.nextId) : Good U D cfg o h' := by
  rcases g with ⟨b, hb⟩ | ⟨p, s⟩
  · exact .inl ⟨b.mono hh, hb⟩
  · exact .inr ⟨p, s.mono hh⟩

theorem Solved.same {cfg : Cfg n} {o o' : OState n} {h h' : Heap n} {p : Opt n} (s : Solved U D cfg o h p)
    (e : Same o h o' h') : Solved U D cfg o' h' p := by
  refine ⟨e.opt.trans s.opt, e.added.trans s.added, s.initObj, s.initCons, s.properP, ?_, ?_, ?_,
    s.idObj.mono e.nextId, fun c hc => (s.ids c hc).mono e.nextId, ?_⟩
  · rw [e.cons]; exact s.properO
  · rcases e.objective with e' | ⟨ob, i, e', hi, h1, -⟩
    · rw [e']; exact s.objective
    · refine .inr ⟨ob, e', ?_⟩
      intro hid
      have := s.idObj
      rw [← hid, hi] at this
      exact absurd this (not_lt.2 h1)
  · rw [e.cons]; exact s.cons
  · rw [e.neutral]; exact s.origin

/-! ### Outcomes of optimisation methods -/

/-- What is proved of one call of an optimisation method with a documented request: the invariant is
kept; and either it raises without calling the solver, or it gives the solver exactly the documented
problem and returns what the solver answers. -/
structure MPost (U : Uni n) (S : Solver n) (D : Data n) (cfg : Cfg n) (c : Call n) (o : OState n)
    (h : Heap n) (r : Except PyErr (Fin n → ℝ) × OState n × Heap n) : Prop where
  good : Good U D cfg r.2.1 r.2.2
  mono : h.nextId ≤ r.2.2.nextId
  res : (∃ e, r.1 = .error e ∧ r.2.2.log = h.log) ∨
    ∃ v q, ask D v c = some q ∧ r.1 = outcome (S h.log.length (doc U cfg h.upar q)) ∧
      r.2.2.log = h.log ++ [doc U cfg h.upar q]
  live : (pname D.kind c).isSome = true → r.2.2.log ≠ h.log → Live U D cfg r.2.1 r.2.2 c
  idle : o.opt = none → r.2.2.log = h.log → r.2.1.opt = none

/-- Solving for the first time. -/
theorem solve_ready {cfg : Cfg n} {mn : Bool} {o : OState n} {h : Heap n} {ex : List (Piece n)}
    (rd : Ready U cfg mn o h ex) {ps : List Par} {f : Env n → EReal} (ho : HasObj U cfg o h ps f)
    (A : (ℕ → ℝ) → Ask n)
    (hA : ∀ e : Env n, f e = ((A e.lpar).base e.asg : EReal) ∧ (pieceSat ex e ↔ (A e.lpar).extra e.asg) ∧
      (A e.lpar).mn = mn) :
    ∃ p k w vals, solve S o h = (outcome (S h.log.length (doc U cfg h.upar (A h.lpar))),
        { o with opt := some p, weights := w },
        { h with log := h.log ++ [doc U cfg h.upar (A h.lpar)], vals := vals }) ∧
      (∀ h', p.prob h' = doc U cfg h'.upar (A h'.lpar)) ∧ p.obj.id = .lib k ∧
      libPars p.pars = libPars (ex.flatMap (fun x => conPars x.1)) ++ ps ∧
      o.objective = some p.obj ∧ o.cons = p.cons ∧
      (∀ neutral, Origin U D cfg p neutral → o.neutral = neutral →
        ∀ w vals L, Solved U D cfg { o with opt := some p, weights := w }
          { h with log := L, vals := vals } p) := by
  obtain ⟨ob, k, h1, h2, h3, h4, h5, h6⟩ := ho
  let p : Opt n := ⟨ob, o.cons, ob.id, some (o.cons.map Con.id)⟩
  have hp : ∀ h', p.prob h' = doc U cfg h'.upar (A h'.lpar) := by
    intro h'
    ext s
    · show ob.body.val _ = _
      rw [h6, (hA _).1]
      rfl
    · show (∀ c ∈ o.cons, c.sat _) ↔ _
      rw [rd.sat, (hA _).2.1]
      have := (hA ⟨s, h'.upar, h'.lpar⟩).2.2
      dsimp only at this
      unfold doc
      dsimp only
      rw [this]
  have hrun : solve S o h = callSolver S p { o with opt := some p } h := by
    generalize hg : callSolver S p { o with opt := some p } h = R
    unfold solve
    rw [bind_ok (a := o) (o' := o) (h' := h) rfl, rd.opt]
    dsimp only
    rw [h1]
    dsimp only
    have : ¬ (¬ ob.body.scalar = true ∨ ¬ usable o.cons) := by
      simp only [h4, not_true_eq_false, false_or, not_not]
      exact usable_proper _ rd.proper
    rw [if_neg this, idsOf_proper _ rd.proper]
    exact hg
  obtain ⟨w, vals, hc, -, -⟩ := callSolver_run (S := S) p { o with opt := some p } h
  refine ⟨p, k, w, vals, ?_, hp, h2, ?_, h1, rfl, ?_⟩
  · rw [hrun, hc, hp h]
  · show libPars (o.cons.flatMap _ ++ ob.body.params) = _
    rw [libPars_append, rd.pars, h5]
  · intro neutral hor hneu w vals L
    refine ⟨rfl, rd.added, rfl, rfl, rd.proper, rd.proper, .inl h1, .inl rfl, ?_, rd.ids, ?_⟩
    · show idLt h.nextId ob.id
      rw [h2]; exact h3
    · rw [show ({ o with opt := some p, weights := w } : OState n).neutral = neutral from hneu]
      exact hor

/-- Solving again: either nothing happens and it raises, or exactly the stored problem is solved. -/
theorem solve_solved {cfg : Cfg n} {o : OState n} {h : Heap n} {p : Opt n} (s : Solved U D cfg o h p) :
    (∃ e, solve S o h = (.error e, o, h)) ∨
      (o.objective = some p.obj ∧ o.cons = p.cons ∧ solve S o h = callSolver S p o h) := by
  have hrun : solve S o h = match o.objective with
      | none => raise .attribute o h
      | some ob => if ob.id ≠ p.initObj then (.error .instantiation, o, h) else
          if !(sameIds (o.cons.map Con.id) (p.cons.map Con.id)) then (.error .instantiation, o, h)
          else callSolver S p o h := by
    unfold solve
    rw [bind_ok (a := o) (o' := o) (h' := h) rfl, s.opt]
    dsimp only
    cases ho : o.objective with
    | none => rfl
    | some ob =>
      dsimp only
      by_cases hi : ob.id ≠ p.initObj
      · rw [if_pos hi, if_pos hi]; rfl
      · rw [if_neg hi, if_neg hi]
        rw [bind_ok (a := o.cons.map Con.id) (o' := o) (h' := h)
          (by show (idsOf o.cons, o, h) = _; rw [idsOf_proper _ s.properO])]
        rw [s.initCons]
        dsimp only
        split <;> rfl
  rcases s.objective with ho | ⟨ob, ho, hne⟩
  · rw [ho] at hrun
    dsimp only at hrun
    rw [if_neg (not_not.2 s.initObj.symm)] at hrun
    rcases s.cons with hc | ⟨c, hc, hni⟩
    · right
      refine ⟨ho, hc, ?_⟩
      rw [hrun, hc, sameIds_refl]
      rfl
    · left
      refine ⟨.instantiation, ?_⟩
      rw [hrun, sameIds_false (List.mem_map_of_mem hc) hni]
      rfl
  · left
    refine ⟨.instantiation, ?_⟩
    rw [hrun, ho]
    dsimp only
    rw [if_pos]
    rw [s.initObj]; exact hne

/-! ### Looking for a parameter -/

theorem scan_eq (name : String) (ls : List (List Par)) (found : Bool) :
    scan name (ls.map Except.ok) found =
      if (ls.flatten.filter (fun p => p.name = name)).length + found.toNat ≤ 1 then
        .ok (found || decide (0 < (ls.flatten.filter (fun p => p.name = name)).length))
      else .error .instantiation := by
  induction ls generalizing found with
  | nil => cases found <;> rfl
  | cons l ls ih =>
    rw [List.map_cons, scan.eq_def]
    dsimp only
    rw [List.flatten_cons, List.filter_append, List.length_append]
    generalize (l.filter (fun p => decide (p.name = name))).length = k
    rcases k with _ | _ | k
    · simp only [ih, Nat.zero_add]
    · cases found
      · simp only [ih]
        by_cases e : (ls.flatten.filter (fun p => p.name = name)).length = 0
        · rw [if_pos (by simp only [Bool.toNat_true]; omega), if_pos (by simp only [Bool.toNat_false]; omega),
            Bool.true_or, Bool.false_or]
          exact congrArg _ (decide_eq_true (by omega)).symm
        · rw [if_neg (by simp only [Bool.toNat_true]; omega), if_neg (by simp only [Bool.toNat_false]; omega)]
      · simp only [Bool.toNat_true]
        rw [if_neg (by omega)]
    · simp only
      rw [if_neg (by omega)]

theorem leavesOf_proper (o : OState n) (hp : ∀ c ∈ o.cons, Proper c.body) :
    leavesOf o = (o.cons.map (fun c => conPars c.body) ++
      match o.objective with
      | none => []
      | some ob => [ob.body.params]).map Except.ok := by
  unfold leavesOf
  rw [List.map_append, List.map_map]
  congr 1
  · exact List.map_congr_left fun c hc => (hp c hc).leaves
  · cases o.objective <;> rfl

/-- All parameter leaves of an object. -/
def allPars (o : OState n) : List Par :=
  o.cons.flatMap (fun c => conPars c.body) ++
    match o.objective with
    | none => []
    | some ob => ob.body.params

theorem leaves_flatten (o : OState n) :
    (o.cons.map (fun c => conPars c.body) ++
      match o.objective with
      | none => []
      | some ob => [ob.body.params]).flatten = allPars o := by
  unfold allPars
  rw [List.flatten_append, List.flatMap_def]
  cases o.objective <;> simp

theorem named_eq (name : String) (o : OState n) (hp : ∀ c ∈ o.cons, Proper c.body) :
    named name o = (allPars o).filter (fun p => p.name = name) := by
  unfold named
  rw [leavesOf_proper o hp, ← leaves_flatten, List.filterMap_map]
  have e : ((Except.toOption : Except PyErr (List Par) → _) ∘ Except.ok) = some := rfl
  rw [e, List.filterMap_some]

theorem isDefined_eq (name : String) (o : OState n) (h : Heap n) (hp : ∀ c ∈ o.cons, Proper c.body) :
    isDefined name o h = (if (named name o).length ≤ 1 then .ok (decide (0 < (named name o).length))
      else .error .instantiation, o, h) := by
  unfold isDefined
  rw [leavesOf_proper o hp, scan_eq, leaves_flatten, named_eq name o hp]
  simp

theorem filter_libPars {nm : String} (hn : nm ∈ libNames) (l : List Par) :
    l.filter (fun p => p.name = nm) = (libPars l).filter (fun p => p.name = nm) := by
  unfold libPars
  rw [List.filter_filter]
  refine List.filter_congr fun p _ => ?_
  by_cases e : p.name = nm
  · simp [e, hn]
  · simp [e]

theorem Base.proper (hU : Usable U D) {cfg : Cfg n} {o : OState n} {h : Heap n} {ex : List (Piece n)}
    (b : Base U cfg o h ex) (hex : ∀ x ∈ ex, Proper x.1) : ∀ c ∈ o.cons, Proper c.body := by
  obtain ⟨b₁, b₂, us, es, c1, c2, c3, c4, c5⟩ := b.cons
  intro c hc
  rw [c1] at hc
  simp only [List.mem_cons, List.mem_append] at hc
  rcases hc with rfl | rfl | hc | hc
  · rw [c2.2.1]; exact proper_ineq _ _
  · rw [c3.2.1]; exact proper_ineq _ _
  · exact forall₂_proper_user hU c4 c hc
  · exact forall₂_proper_piece c5 hex c hc

theorem Base.conPars_nil (hU : Usable U D) {cfg : Cfg n} {o : OState n} {h : Heap n}
    (b : Base U cfg o h []) : libPars (o.cons.flatMap (fun c => conPars c.body)) = [] := by
  obtain ⟨b₁, b₂, us, es, c1, c2, c3, c4, c5⟩ := b.cons
  cases c5
  rw [c1, List.flatMap_cons, List.flatMap_cons, c2.2.1, c3.2.1, List.append_nil]
  simp only [libPars_append, forall₂_pars_user hU c4]
  rfl

/-- Before the first solve a target method builds its problem. -/
theorem withParameter_clean (hU : Usable U D) {cfg : Cfg n} {o : OState n} {h : Heap n}
    (b : Base U cfg o h []) (hob : ∀ ob, o.objective = some ob → libPars ob.body.params = [])
    {nm : String} (hn : nm ∈ libNames) (mn : Bool) (v : ℝ) (build : M n Unit) :
    withParameter S nm mn v build o h = (build >>= fun _ => solve S) o h := by
  have hp := b.proper hU (by simp)
  have hl : libPars (allPars o) = [] := by
    unfold allPars
    rw [libPars_append, b.conPars_nil hU]
    cases ho : o.objective with
    | none => rfl
    | some ob => exact hob ob ho
  have hname : named nm o = [] := by
    rw [named_eq nm o hp, filter_libPars hn, hl]; rfl
  unfold withParameter
  have e : isDefined nm o h = (.ok false, o, h) := by
    rw [isDefined_eq nm o h hp, hname]; rfl
  rw [bind_ok e]
  rfl

/-- A raising program on a solved object. -/
theorem raises_post {cfg : Cfg n} {o : OState n} {h : Heap n} {p : Opt n} (s : Solved U D cfg o h p)
    (c : Call n) {x : M n (Fin n → ℝ)} (hq : Quiet x) (hr : Raises x) :
    MPost U S D cfg c o h (x o h) := by
  have ho : o.opt ≠ none := by rw [s.opt]; exact nofun
  have e := hq o h ho
  exact ⟨.inr ⟨p, s.same e⟩, e.nextId, .inl ((hr o h ho).imp fun _ he => ⟨he, e.log⟩),
    fun _ hl => absurd e.log hl, fun hn => absurd hn ho⟩

theorem setPars_other (v : ℝ) (l : List Par) (o : OState n) (h : Heap n) :
    (setPars v l o h).2.1 = o ∧ (setPars v l o h).2.2.nextId = h.nextId ∧
      (setPars v l o h).2.2.log = h.log := by
  induction l generalizing h with
  | nil => exact ⟨rfl, rfl, rfl⟩
  | cons q l ih =>
    unfold setPars
    split
    · exact ⟨rfl, rfl, rfl⟩
    · obtain ⟨h1, h2, h3⟩ := ih (h.setPar q v)
      refine ⟨h1, h2.trans ?_, h3.trans ?_⟩ <;> unfold Heap.setPar <;> cases q.ref <;> rfl

/-- A target method on a solved object. -/
theorem withParameter_solved {cfg : Cfg n} {o : OState n} {h : Heap n} {p : Opt n} 
    (s : Solved U D cfg o h p) {c : Call n} {nm : String} (hc : pname D.kind c = some nm)
    {build : M n Unit} (hq : Quiet build) (hr : Raises build) :
    MPost U S D cfg c o h (withParameter S nm (mnOf c) (parVal D c) build o h) := by
  have ho : o.opt ≠ none := by rw [s.opt]; exact nofun
  have hn := pname_mem hc
  have herr : ∀ e, MPost U S D cfg c o h (.error e, o, h) := fun e =>
    ⟨.inr ⟨p, s⟩, le_rfl, .inl ⟨e, rfl, rfl⟩, fun _ hl => absurd rfl hl, fun ho _ => ho⟩
  have hdef := isDefined_eq nm o h s.properO
  by_cases hlen : (named nm o).length ≤ 1
  swap
  · rw [if_neg hlen] at hdef
    have : withParameter S nm (mnOf c) (parVal D c) build o h = (.error .instantiation, o, h) :=
      bind_err hdef
    rw [this]; exact herr _
  rw [if_pos hlen] at hdef
  by_cases hpos : 0 < (named nm o).length
  swap
  · rw [decide_eq_false hpos] at hdef
    have : withParameter S nm (mnOf c) (parVal D c) build o h = (build >>= fun _ => solve S) o h :=
      bind_ok hdef
    rw [this]
    have e := hq o h ho
    obtain ⟨e', he'⟩ := hr o h ho
    rw [bind_run]
    rcases hb : build o h with ⟨r, o', h'⟩
    rw [hb] at e he'
    dsimp only at he'
    subst he'
    exact ⟨.inr ⟨p, s.same e⟩, e.nextId, .inl ⟨e', rfl, e.log⟩, fun _ hl => absurd e.log hl, fun hn => absurd hn ho⟩
  rw [decide_eq_true hpos] at hdef
  have hrun : withParameter S nm (mnOf c) (parVal D c) build o h =
      (validateNeutral (mnOf c) >>= fun _ => updatePar nm (parVal D c) >>= fun _ => solve S) o h := by
    unfold withParameter
    rw [bind_ok hdef]
    rfl
  rw [hrun]
  have hval : validateNeutral (mnOf c) o h =
      if o.neutral ≠ some (mnOf c) then (.error .instantiation, o, h) else (.ok (), o, h) := by
    unfold validateNeutral
    rw [bind_ok (a := o) (o' := o) (h' := h) rfl]
    split <;> rfl
  by_cases hmn : o.neutral ≠ some (mnOf c)
  · rw [if_pos hmn] at hval
    rw [bind_err hval]; exact herr _
  rw [if_neg hmn] at hval
  rw [bind_ok hval]
  have hupd : updatePar nm (parVal D c) o h = setPars (parVal D c) (named nm o) o h := by
    unfold updatePar
    rw [bind_ok hdef]
    rfl
  obtain ⟨e1, e2, e3⟩ := setPars_other (parVal D c) (named nm o) o h
  rw [bind_run, hupd]
  rcases hsp : setPars (parVal D c) (named nm o) o h with ⟨r, o', h'⟩
  rw [hsp] at e1 e2 e3
  dsimp only at e1 e2 e3
  subst e1
  cases r with
  | error e => exact ⟨.inr ⟨p, s.mono e2.ge⟩, e2.ge, .inl ⟨e, rfl, e3⟩, fun _ hl => absurd e3 hl, fun hn => absurd hn ho⟩
  | ok u =>
    dsimp only
    have s' : Solved U D cfg o' h' p := s.mono e2.ge
    rcases solve_solved (S := S) s' with ⟨e, he⟩ | ⟨hobj, hcons, hsolve⟩
    · rw [he]; exact ⟨.inr ⟨p, s'⟩, e2.ge, .inl ⟨e, rfl, e3⟩, fun _ hl => absurd e3 hl, fun hn => absurd hn ho⟩
    · have hall : allPars o' = p.pars := by
        unfold allPars Opt.pars; rw [hobj, hcons]
      have hnm : named nm o' = (libPars p.pars).filter (fun q => q.name = nm) := by
        rw [named_eq nm o' s.properO, filter_libPars hn, hall]
      cases s.origin with
      | once k hid hp => rw [hnm, hp] at hpos; simp at hpos
      | convex i b hid hp hd => rw [hnm, hp] at hpos; simp at hpos
      | target c' v nm' nn a k hid hc' hnn' hp hneu hd =>
        have hnn : nm' = nm := by
          by_contra hne
          rw [hnm, hp] at hpos
          simp [hne] at hpos
        subst hnn
        have hnamed : named nm' o' = [⟨nm', nn, .lib a⟩] := by rw [hnm, hp]; simp
        have hmm : mnOf c' = mnOf c := by
          rw [not_not] at hmn
          rw [hmn] at hneu
          exact (Option.some.inj hneu).symm
        -- the heap after the update
        have hh' : h' = { h with lpar := Function.update h.lpar a (parVal D c) } := by
          rw [hnamed] at hsp
          unfold setPars at hsp
          split at hsp
          · cases hsp
          · exact (congrArg (fun x => x.2.2) hsp).symm
        have hd' : ∀ h, ∃ q, fam D v c (h.lpar a) = some q ∧ p.prob h = doc U cfg h.upar q := by
          rw [← fam_congr hc' hc hmm]; exact hd
        obtain ⟨q, hq1, hq2⟩ := hd' h'
        have hlp : h'.lpar a = parVal D c := by rw [hh']; simp
        have hup : h'.upar = h.upar := by rw [hh']
        rw [hlp, fam_parVal] at hq1
        rw [hup] at hq2
        obtain ⟨w, vals, hrun, -, -⟩ := callSolver_run (S := S) p o' h'
        rw [hsolve, hrun, hq2, e3]
        have fin : ∀ w vals L, Solved U D cfg { o' with weights := w } { h' with log := L, vals := vals } p :=
          fun _ _ _ => ⟨s'.opt, s'.added, s'.initObj, s'.initCons, s'.properP, s'.properO, s'.objective,
            s'.cons, s'.idObj, s'.ids, s'.origin⟩
        exact ⟨.inr ⟨p, fin _ _ _⟩, e2.ge, .inr ⟨v, q, hq1, rfl, rfl⟩, fun _ _ => ⟨p, v, nm', a, fin _ _ _, hobj,
          hcons, hc, by rw [hp, hnn', nnOf_congr hc' hc], not_not.1 hmn, hd'⟩,
          fun hn => absurd hn ho⟩

end Verif.Convex
