import Verif.Proof.Convex
import Mathlib.Tactic.Linarith

/-! Building and solving the first problem of an optimizer object. -/

noncomputable section

namespace Verif.Convex
open Verif.Py Verif.Base

variable {n : ℕ} {U : Uni n} {S : Solver n} {D : Data n}

/-- Parameter names the library uses. -/
def libNames : List String :=
  ["risk_aversion", "target_variance", "target_cvar", "target_cdar", "target_semivariance", "target_return"]

def libPars (l : List Par) : List Par := l.filter (fun p => p.name ∈ libNames)

@[simp] theorem libPars_nil : libPars [] = [] := rfl

@[simp] theorem libPars_append (a b : List Par) : libPars (a ++ b) = libPars a ++ libPars b :=
  List.filter_append _ _

def conPars (c : ConBody Par (Env n)) : List Par :=
  match c.leaves with
  | .ok l => l
  | .error _ => []

/-- A cvxpy constraint, not a Boolean or another object. -/
def Proper (c : ConBody Par (Env n)) : Prop := (∀ b, c ≠ .bool b) ∧ c ≠ .junk

theorem Proper.leaves {c : ConBody Par (Env n)} (h : Proper c) : c.leaves = .ok (conPars c) := by
  cases c with
  | bool b => exact absurd rfl (h.1 b)
  | junk => exact absurd rfl h.2
  | _ => rfl

theorem proper_ineq {m : ℕ} (a b : Expr Par (Env n) m) : Proper (.ineq m a b) := ⟨fun _ => nofun, nofun⟩

theorem proper_eq {m : ℕ} (a b : Expr Par (Env n) m) : Proper (.eq m a b) := ⟨fun _ => nofun, nofun⟩

def idLt (k : ℕ) : Ref → Prop
  | .usr _ => True
  | .lib i => i < k

theorem idLt.mono {k l : ℕ} (h : k ≤ l) {r : Ref} (hr : idLt k r) : idLt l r := by
  cases r with
  | usr i => trivial
  | lib i => exact lt_of_lt_of_le hr h

/-! ### User objects -/

theorem libPars_user (hU : Usable U D) (l : List ℕ) : libPars (l.map U.toPar) = [] := by
  unfold libPars
  rw [List.filter_eq_nil_iff]
  intro p hp
  obtain ⟨i, -, rfl⟩ := List.mem_map.1 hp
  simpa [libNames, Uni.toPar] using hU.names i

theorem mkObj_libPars (hU : Usable U D) (i : ℕ) : libPars (U.mkObj i).body.params = [] :=
  libPars_user hU _

theorem mkObj_scalar (hU : Usable U D) (i : ℕ) : (U.mkObj i).body.scalar = true := hU.scalar i

theorem mkCon_proper (hU : Usable U D) (i : ℕ) : Proper (U.mkCon i).body := by
  have h := hU.cons i
  unfold Uni.mkCon
  cases hc : U.con i with
  | bool b => exact absurd hc (h.1 b)
  | junk => exact absurd hc h.2
  | _ => exact ⟨fun _ => nofun, nofun⟩

theorem mkCon_libPars (hU : Usable U D) (i : ℕ) : libPars (conPars (U.mkCon i).body) = [] := by
  unfold Uni.mkCon conPars
  cases hc : U.con i with
  | bool b => rfl
  | junk => rfl
  | other ps s => exact libPars_user hU ps
  | ineq m a b =>
    show libPars (_ ++ _) = _
    rw [libPars_append]
    exact (congrArg₂ _ (libPars_user hU a.params) (libPars_user hU b.params)).trans rfl
  | eq m a b =>
    show libPars (_ ++ _) = _
    rw [libPars_append]
    exact (congrArg₂ _ (libPars_user hU a.params) (libPars_user hU b.params)).trans rfl

theorem mkCon_sat (i : ℕ) (e : Env n) :
    (U.mkCon i).sat e ↔ (U.con i).sat ⟨e.asg.w, e.asg.usr, e.upar⟩ := by
  unfold Con.sat Uni.mkCon
  simp only [and_true]
  cases hc : U.con i <;> rfl

/-- The body of a sector constraint. -/
def sectorBody (sec : Fin n → Option String) (s : Option String) (upper : Bool) (b : ℝ) :
    ConBody Par (Env n) :=
  if upper then .ineq 1 (real (fun x _ => ∑ i, if sec i = s then x.w i else 0)) (const (fun _ => (b : EReal)))
  else .ineq 1 (const (fun _ => (b : EReal))) (real (fun x _ => ∑ i, if sec i = s then x.w i else 0))

/-- `c` is the constraint object of an accepted addition. -/
def Matches (U : Uni n) (c : Con n) : Added n → Prop
  | .usr i => c = U.mkCon i
  | .sector sec s up b => ∃ k, c = ⟨.lib k, sectorBody sec s up b, fun _ => True⟩

theorem Matches.sat {c : Con n} {a : Added n} (h : Matches U c a) (e : Env n) :
    c.sat e ↔ a.holds U e.upar e.asg := by
  cases a with
  | usr i =>
    have h : c = U.mkCon i := h
    rw [h, mkCon_sat]; rfl
  | sector sec s up b =>
    obtain ⟨k, rfl⟩ := h
    cases up with
    | true =>
      simp only [Con.sat, and_true, sectorBody, if_true, ConBody.sat, real, const, EReal.coe_le_coe_iff,
        Fin.forall_fin_one, Added.holds, Finset.sum_filter]
    | false =>
      simp only [Con.sat, and_true, sectorBody, Bool.false_eq_true, if_false, ConBody.sat, real, const,
        EReal.coe_le_coe_iff, Fin.forall_fin_one, Added.holds, Finset.sum_filter]

theorem Matches.proper (hU : Usable U D) {c : Con n} {a : Added n} (h : Matches U c a) : Proper c.body := by
  cases a with
  | usr i =>
    have h : c = U.mkCon i := h
    rw [h]; exact mkCon_proper hU i
  | sector sec s up b =>
    obtain ⟨k, rfl⟩ := h
    cases up
    · exact proper_ineq _ _
    · exact proper_ineq _ _

theorem Matches.libPars (hU : Usable U D) {c : Con n} {a : Added n} (h : Matches U c a) :
    libPars (conPars c.body) = [] := by
  cases a with
  | usr i =>
    have h : c = U.mkCon i := h
    rw [h]; exact mkCon_libPars hU i
  | sector sec s up b =>
    obtain ⟨k, rfl⟩ := h
    cases up <;> rfl

/-! ### The summed objective -/

theorem sumObj_val (a : Obj n) (l : List (Obj n)) (k : ℕ) (e : Env n) :
    (sumObj a l k).body.val e = a.body.val e + (l.map (fun b => b.body.val e)).sum := by
  induction l generalizing a k with
  | nil => simp [sumObj]
  | cons b l ih =>
    rw [sumObj, ih, List.map_cons, List.sum_cons, ← add_assoc]
    rfl

theorem sumObj_scalar (a : Obj n) (l : List (Obj n)) (k : ℕ) (ha : a.body.scalar = true)
    (hl : ∀ b ∈ l, b.body.scalar = true) : (sumObj a l k).body.scalar = true := by
  induction l generalizing a k with
  | nil => exact ha
  | cons b l ih =>
    rw [sumObj]
    refine ih _ _ ?_ fun c hc => hl c (List.mem_cons_of_mem _ hc)
    simp [addTo, ha, hl b (List.mem_cons_self ..)]

theorem sumObj_libPars (a : Obj n) (l : List (Obj n)) (k : ℕ)
    (hl : ∀ b ∈ l, libPars b.body.params = []) :
    libPars (sumObj a l k).body.params = libPars a.body.params := by
  induction l generalizing a k with
  | nil => rfl
  | cons b l ih =>
    rw [sumObj, ih _ _ fun c hc => hl c (List.mem_cons_of_mem _ hc)]
    simp [addTo, hl b (List.mem_cons_self ..)]

/-! ### States of an object that has not been optimised -/

/-- A constraint body with the attributes of its variables. -/
abbrev Piece (n : ℕ) := ConBody Par (Env n) × (Env n → Prop)

def always : Env n → Prop := fun _ => True

/-- `c` is a library object with the given body. -/
def IsPiece (c : Con n) (b : Piece n) : Prop := (∃ k, c.id = .lib k) ∧ c.body = b.1 ∧ c.dom = b.2

/-- Before the first solve: bounds, user additions, and the pieces `ex` a method has added so far. -/
structure Base (U : Uni n) (cfg : Cfg n) (o : OState n) (h : Heap n) (ex : List (Piece n)) : Prop where
  opt : o.opt = none
  lb : o.lb = cfg.lb
  ub : o.ub = cfg.ub
  added : o.added = cfg.objs.map U.mkObj
  cons : ∃ b₁ b₂ us es, o.cons = b₁ :: b₂ :: (us ++ es) ∧ IsPiece b₁ (lowerCon cfg.lb, always) ∧
    IsPiece b₂ (upperCon cfg.ub, always) ∧ List.Forall₂ (Matches U) us cfg.cons ∧
    List.Forall₂ IsPiece es ex
  ids : ∀ c ∈ o.cons, idLt h.nextId c.id

/-- The total of the user's additional objectives. -/
def addedVal (U : Uni n) (cfg : Cfg n) (e : Env n) : EReal :=
  (cfg.objs.map (fun i => (U.obj i).val ⟨e.asg.w, e.asg.usr, e.upar⟩)).sum

/-- The objective attribute is a new library expression with value `f` plus the user's additional
objectives and with the library parameters `ps`. -/
def HasObj (U : Uni n) (cfg : Cfg n) (o : OState n) (h : Heap n) (ps : List Par) (f : Env n → EReal) : Prop :=
  ∃ ob k, o.objective = some ob ∧ ob.id = .lib k ∧ k < h.nextId ∧ ob.body.scalar = true ∧
    libPars ob.body.params = ps ∧ ∀ e, ob.body.val e = f e + addedVal U cfg e

theorem Base.mono {cfg : Cfg n} {o : OState n} {h h' : Heap n} {ex : List (Piece n)}
    (b : Base U cfg o h ex) (hh : h.nextId ≤ h'.nextId) : Base U cfg o h' ex :=
  ⟨b.opt, b.lb, b.ub, b.added, b.cons, fun c hc => (b.ids c hc).mono hh⟩

theorem HasObj.mono {cfg : Cfg n} {o : OState n} {h h' : Heap n} {ps : List Par} {f : Env n → EReal}
    (b : HasObj U cfg o h ps f) (hh : h.nextId ≤ h'.nextId) : HasObj U cfg o h' ps f := by
  obtain ⟨ob, k, h1, h2, h3, h4⟩ := b
  exact ⟨ob, k, h1, h2, h3.trans_le hh, h4⟩

/-- `addLib` before the first solve. -/
theorem Base.addLib {cfg : Cfg n} {o : OState n} {h : Heap n} {ex : List (Piece n)}
    (b : Base U cfg o h ex) (c : ConBody Par (Env n)) (d : Env n → Prop) :
    ∃ o', Convex.addLib c d o h = (.ok (), o', { h with nextId := h.nextId + 1 }) ∧
      Base U cfg o' { h with nextId := h.nextId + 1 } (ex ++ [(c, d)]) ∧ o'.objective = o.objective ∧
      o'.neutral = o.neutral ∧ o'.maxRet = o.maxRet := by
  refine ⟨_, addLib_run c d o h b.opt, ⟨b.opt, b.lb, b.ub, b.added, ?_, ?_⟩, rfl, rfl, rfl⟩
  · obtain ⟨b₁, b₂, us, es, h1, h2, h3, h4, h5⟩ := b.cons
    refine ⟨b₁, b₂, us, es ++ [⟨.lib h.nextId, c, d⟩], ?_, h2, h3, h4, ?_⟩
    · simp [h1]
    · exact List.rel_append h5 (.cons ⟨⟨_, rfl⟩, rfl, rfl⟩ .nil)
  · intro x hx
    rcases List.mem_append.1 hx with hx | hx
    · exact (b.ids x hx).mono (Nat.le_succ _)
    · obtain rfl := List.mem_singleton.1 hx
      exact Nat.lt_succ_self _

/-- Setting the objective and adding the additional ones. -/
theorem Base.setObjective (hU : Usable U D) {cfg : Cfg n} {o : OState n} {h : Heap n} {ex : List (Piece n)}
    (b : Base U cfg o h ex) (ps : List Par) (f : Env n → EReal) {β : Type} (k : M n β) :
    ∃ o' i, h.nextId ≤ i ∧
      (Convex.setObjective ps f >>= fun _ => addAll >>= fun _ => k) o h = k o' { h with nextId := i } ∧
      Base U cfg o' { h with nextId := i } ex ∧ HasObj U cfg o' { h with nextId := i } (libPars ps) f ∧
      o'.neutral = o.neutral ∧ o'.maxRet = o.maxRet ∧ o'.cons = o.cons ∧ o'.weights = o.weights := by
  have hl : ∀ x ∈ o.added, x.body.scalar = true ∧ libPars x.body.params = [] := by
    intro x hx
    rw [b.added] at hx
    obtain ⟨i, -, rfl⟩ := List.mem_map.1 hx
    exact ⟨mkObj_scalar hU i, mkObj_libPars hU i⟩
  have hrun := addAll_run ⟨.lib h.nextId, true, ps, f⟩
    { o with objective := some ⟨.lib h.nextId, true, ps, f⟩ } { h with nextId := h.nextId + 1 } rfl
  refine ⟨_, _, ?_, (bind_ok (setObjective_run ps f o h)).trans (bind_ok hrun), ?_, ?_, rfl, rfl, rfl, rfl⟩
  · show h.nextId ≤ h.nextId + 1 + o.added.length
    omega
  · refine ⟨b.opt, b.lb, b.ub, b.added, b.cons, fun c hc => (b.ids c hc).mono ?_⟩
    show h.nextId ≤ h.nextId + 1 + o.added.length
    omega
  · have hid : ∃ i, (sumObj (⟨.lib h.nextId, true, ps, f⟩ : Obj n) o.added (h.nextId + 1)).id = .lib i ∧
        i < h.nextId + 1 + o.added.length := by
      rcases sumObj_id (⟨.lib h.nextId, true, ps, f⟩ : Obj n) o.added (h.nextId + 1) with
        ⟨h1, h2⟩ | ⟨i, h1, -, h3⟩
      · rw [h2]; exact ⟨h.nextId, rfl, by omega⟩
      · exact ⟨i, h1, h3⟩
    obtain ⟨i, hi, hi'⟩ := hid
    refine ⟨_, i, rfl, hi, hi', ?_, ?_, ?_⟩
    · exact sumObj_scalar _ _ _ rfl fun x hx => (hl x hx).1
    · exact sumObj_libPars _ _ _ fun x hx => (hl x hx).2
    · intro e
      rw [sumObj_val]
      show f e + (List.map _ o.added).sum = _
      rw [b.added, List.map_map]
      rfl

/-! ### Ready to solve -/

def pieceSat (ex : List (Piece n)) (e : Env n) : Prop := ∀ x ∈ ex, x.1.sat e ∧ x.2 e

/-- All constraints are in place. -/
structure Ready (U : Uni n) (cfg : Cfg n) (mn : Bool) (o : OState n) (h : Heap n) (ex : List (Piece n)) :
    Prop where
  opt : o.opt = none
  added : o.added = cfg.objs.map U.mkObj
  proper : ∀ c ∈ o.cons, Proper c.body
  pars : libPars (o.cons.flatMap (fun c => conPars c.body)) = libPars (ex.flatMap (fun x => conPars x.1))
  ids : ∀ c ∈ o.cons, idLt h.nextId c.id
  sat : ∀ e, (∀ c ∈ o.cons, c.sat e) ↔ Within cfg mn e.asg.w ∧ (∀ x ∈ cfg.cons, x.holds U e.upar e.asg) ∧
    ∑ i, e.asg.w i = (if mn then 0 else 1) ∧ pieceSat ex e

theorem sat_bounds (lb ub : Fin n → EReal) (e : Env n) :
    (lowerCon lb).sat e ∧ (upperCon ub).sat e ↔
      ∀ i, lb i ≤ (e.asg.w i : EReal) ∧ (e.asg.w i : EReal) ≤ ub i := by
  simp only [lowerCon, upperCon, ConBody.sat, const, wExpr, real]
  exact forall_and.symm

theorem sat_sum (c : ℝ) (e : Env n) : (sumCon c : ConBody Par (Env n)).sat e ↔ ∑ i, e.asg.w i = c := by
  simp only [sumCon, ConBody.sat, sumExpr, real, const, Fin.forall_fin_one, EReal.coe_eq_coe_iff]

theorem forall₂_sat {us : List (Con n)} {as : List (Added n)} (h : List.Forall₂ (Matches U) us as) (e : Env n) :
    (∀ c ∈ us, c.sat e) ↔ ∀ a ∈ as, a.holds U e.upar e.asg := by
  induction h with
  | nil => simp
  | cons h1 _ ih => simp only [List.forall_mem_cons, h1.sat e, ih]

theorem forall₂_piece {es : List (Con n)} {ex : List (Piece n)} (h : List.Forall₂ IsPiece es ex) (e : Env n) :
    (∀ c ∈ es, c.sat e) ↔ pieceSat ex e := by
  unfold pieceSat
  induction h with
  | nil => simp
  | cons h1 _ ih =>
    simp only [List.forall_mem_cons, ih]
    unfold Con.sat
    rw [h1.2.1, h1.2.2]

theorem forall₂_pars_user (hU : Usable U D) {us : List (Con n)} {as : List (Added n)}
    (h : List.Forall₂ (Matches U) us as) : libPars (us.flatMap (fun c => conPars c.body)) = [] := by
  induction h with
  | nil => rfl
  | cons h1 _ ih => rw [List.flatMap_cons, libPars_append, h1.libPars hU, ih]; rfl

theorem forall₂_pars_piece {es : List (Con n)} {ex : List (Piece n)} (h : List.Forall₂ IsPiece es ex) :
    es.flatMap (fun c => conPars c.body) = ex.flatMap (fun x => conPars x.1) := by
  induction h with
  | nil => rfl
  | cons h1 _ ih => rw [List.flatMap_cons, List.flatMap_cons, h1.2.1, ih]

theorem forall₂_proper_user (hU : Usable U D) {us : List (Con n)} {as : List (Added n)}
    (h : List.Forall₂ (Matches U) us as) : ∀ c ∈ us, Proper c.body := by
  induction h with
  | nil => simp
  | cons h1 _ ih => simp only [List.forall_mem_cons]; exact ⟨h1.proper hU, ih⟩

theorem forall₂_proper_piece {es : List (Con n)} {ex : List (Piece n)} (h : List.Forall₂ IsPiece es ex)
    (hex : ∀ x ∈ ex, Proper x.1) : ∀ c ∈ es, Proper c.body := by
  induction h with
  | nil => simp
  | cons h1 _ ih =>
    simp only [List.forall_mem_cons] at hex ⊢
    refine ⟨?_, ih hex.2⟩
    rw [h1.2.1]; exact hex.1

/-- Adding `sum(w) == 1`. -/
theorem Base.sumOne (hU : Usable U D) {cfg : Cfg n} {o : OState n} {h : Heap n} {ex : List (Piece n)}
    (b : Base U cfg o h ex) (hex : ∀ x ∈ ex, Proper x.1) :
    ∃ o', Convex.addLib (sumCon 1) always o h = (.ok (), o', { h with nextId := h.nextId + 1 }) ∧
      Ready U cfg false o' { h with nextId := h.nextId + 1 } ex ∧ o'.objective = o.objective ∧
      o'.maxRet = o.maxRet ∧ o'.neutral = o.neutral := by
  obtain ⟨o', h1, b', h2, h3, h4⟩ := b.addLib (sumCon 1) always
  refine ⟨o', h1, ?_, h2, h4, h3⟩
  obtain ⟨b₁, b₂, us, es, c1, c2, c3, c4, c5⟩ := b'.cons
  have hex' : ∀ x ∈ ex ++ [((sumCon 1 : ConBody Par (Env n)), always)], Proper x.1 := by
    intro x hx
    rcases List.mem_append.1 hx with hx | hx
    · exact hex x hx
    · obtain rfl := List.mem_singleton.1 hx
      exact proper_eq _ _
  refine ⟨b'.opt, b'.added, ?_, ?_, b'.ids, ?_⟩
  · intro c hc
    rw [c1] at hc
    simp only [List.mem_cons, List.mem_append] at hc
    rcases hc with rfl | rfl | hc | hc
    · rw [c2.2.1]; exact proper_ineq _ _
    · rw [c3.2.1]; exact proper_ineq _ _
    · exact forall₂_proper_user hU c4 c hc
    · exact forall₂_proper_piece c5 hex' c hc
  · rw [c1, List.flatMap_cons, List.flatMap_cons, List.flatMap_append, forall₂_pars_piece c5, c2.2.1, c3.2.1]
    simp only [libPars_append, forall₂_pars_user hU c4, List.flatMap_append]
    simp [lowerCon, upperCon, sumCon, conPars, ConBody.leaves, const, wExpr, real, sumExpr]
  · intro e
    rw [c1]
    simp only [List.forall_mem_cons, List.forall_mem_append, forall₂_sat c4, forall₂_piece c5]
    have e1 : b₁.sat e ↔ (lowerCon cfg.lb).sat e := by unfold Con.sat; rw [c2.2.1, c2.2.2]; simp [always]
    have e2 : b₂.sat e ↔ (upperCon cfg.ub).sat e := by unfold Con.sat; rw [c3.2.1, c3.2.2]; simp [always]
    rw [e1, e2, ← and_assoc, sat_bounds]
    have e3 : pieceSat (ex ++ [((sumCon 1 : ConBody Par (Env n)), always)]) e ↔
        ∑ i, e.asg.w i = 1 ∧ pieceSat ex e := by
      unfold pieceSat
      simp only [List.forall_mem_append, List.forall_mem_singleton, sat_sum, always, and_true]
      exact and_comm
    rw [e3]
    simp [Within]

/-- `_make_weight_sum_constraint` before the first solve. -/
theorem Base.makeWeightSum (hU : Usable U D) {cfg : Cfg n} {o : OState n} {h : Heap n} {ex : List (Piece n)}
    (b : Base U cfg o h ex) (hex : ∀ x ∈ ex, Proper x.1) (mn : Bool) :
    ∃ o' i, h.nextId ≤ i ∧ Convex.makeWeightSum mn o h = (.ok (), o', { h with nextId := i }) ∧
      Ready U cfg mn o' { h with nextId := i } ex ∧ o'.objective = o.objective ∧ o'.maxRet = o.maxRet ∧
      o'.neutral = some mn := by
  cases mn with
  | false =>
    obtain ⟨o', h1, h2, h3, h4, -⟩ := b.sumOne hU hex
    refine ⟨{ o' with neutral := some false }, h.nextId + 1, Nat.le_succ _, bind_ok h1, ?_, h3, h4, rfl⟩
    exact ⟨h2.opt, h2.added, h2.proper, h2.pars, h2.ids, h2.sat⟩
  | true =>
    by_cases hb : ∃ i, o.lb i < 0
    · -- bounds kept
      have e0 : amendBounds o h = (.ok (), o, h) := by
        unfold amendBounds
        rw [bind_ok (a := o) (o' := o) (h' := h) rfl, if_neg (not_not.2 hb)]
        rfl
      obtain ⟨o', h1, b', h2, h3, h4⟩ := b.addLib (sumCon 0) always
      obtain ⟨b₁, b₂, us, es, c1, c2, c3, c4, c5⟩ := b'.cons
      have hex' : ∀ x ∈ ex ++ [((sumCon 0 : ConBody Par (Env n)), always)], Proper x.1 := by
        intro x hx
        rcases List.mem_append.1 hx with hx | hx
        · exact hex x hx
        · obtain rfl := List.mem_singleton.1 hx
          exact proper_eq _ _
      refine ⟨{ o' with neutral := some true }, h.nextId + 1, Nat.le_succ _,
        bind_ok ((bind_ok e0).trans h1), ?_, h2, h4, rfl⟩
      refine ⟨b'.opt, b'.added, ?_, ?_, b'.ids, ?_⟩
      · intro c hc
        rw [c1] at hc
        simp only [List.mem_cons, List.mem_append] at hc
        rcases hc with rfl | rfl | hc | hc
        · rw [c2.2.1]; exact proper_ineq _ _
        · rw [c3.2.1]; exact proper_ineq _ _
        · exact forall₂_proper_user hU c4 c hc
        · exact forall₂_proper_piece c5 hex' c hc
      · show libPars (o'.cons.flatMap _) = _
        rw [c1, List.flatMap_cons, List.flatMap_cons, List.flatMap_append, forall₂_pars_piece c5, c2.2.1,
          c3.2.1]
        simp only [libPars_append, forall₂_pars_user hU c4, List.flatMap_append]
        simp [lowerCon, upperCon, sumCon, conPars, ConBody.leaves, const, wExpr, real, sumExpr]
      · intro e
        show (∀ c ∈ o'.cons, _) ↔ _
        rw [c1]
        simp only [List.forall_mem_cons, List.forall_mem_append, forall₂_sat c4, forall₂_piece c5]
        have e1 : b₁.sat e ↔ (lowerCon cfg.lb).sat e := by unfold Con.sat; rw [c2.2.1, c2.2.2]; simp [always]
        have e2 : b₂.sat e ↔ (upperCon cfg.ub).sat e := by unfold Con.sat; rw [c3.2.1, c3.2.2]; simp [always]
        rw [e1, e2, ← and_assoc, sat_bounds]
        have e3 : pieceSat (ex ++ [((sumCon 0 : ConBody Par (Env n)), always)]) e ↔
            ∑ i, e.asg.w i = 0 ∧ pieceSat ex e := by
          unfold pieceSat
          simp only [List.forall_mem_append, List.forall_mem_singleton, sat_sum, always, and_true]
          exact and_comm
        rw [e3]
        have hb' : ¬ ∀ i, 0 ≤ cfg.lb i := by
          rw [← b.lb]; push Not; exact hb
        simp [Within, hb']
    · -- bounds replaced by (-1, 1)
      have hb0 : ∀ i, 0 ≤ cfg.lb i := by
        rw [← b.lb]; intro i; exact not_lt.1 fun hi => hb ⟨i, hi⟩
      obtain ⟨b₁, b₂, us, es, c1, c2, c3, c4, c5⟩ := b.cons
      let o1 : OState n := { o with lb := fun _ => -1, ub := fun _ => 1 }
      have r1 : mapBounds (fun _ => -1) (fun _ => 1) o h = (.ok (),
          { o1 with cons := o.cons ++ [⟨.lib h.nextId, lowerCon (fun _ => -1), always⟩] ++
              [⟨.lib (h.nextId + 1), upperCon (fun _ => 1), always⟩] },
          { h with nextId := h.nextId + 1 + 1 }) := by
        unfold mapBounds
        rw [bind_ok (a := ()) (o' := o1) (h' := h) rfl, bind_ok (addLib_run _ _ o1 h b.opt)]
        exact addLib_run _ _ _ _ b.opt
      let o2 : OState n :=
        { o1 with cons := us ++ es ++ [⟨.lib h.nextId, lowerCon (fun _ => -1), always⟩] ++
            [⟨.lib (h.nextId + 1), upperCon (fun _ => 1), always⟩] }
      have r2 : amendBounds o h = (.ok (), o2, { h with nextId := h.nextId + 1 + 1 }) := by
        unfold amendBounds
        rw [bind_ok (a := o) (o' := o) (h' := h) rfl, if_pos hb, bind_ok r1]
        unfold modify
        simp only [c1]
        rfl
      have r3 := addLib_run (sumCon 0) always o2 { h with nextId := h.nextId + 1 + 1 } b.opt
      have r4 : sumConstraint true o h = _ := (bind_ok r2).trans r3
      refine ⟨{ o2 with cons := o2.cons ++ [⟨.lib (h.nextId + 1 + 1), sumCon 0, always⟩], neutral := some true },
        h.nextId + 1 + 1 + 1, by omega, bind_ok r4, ?_, rfl, rfl, rfl⟩
      refine ⟨b.opt, b.added, ?_, ?_, ?_, ?_⟩
      · intro c hc
        simp only [o2, List.mem_append, List.mem_singleton] at hc
        rcases hc with (((hc | hc) | rfl) | rfl) | rfl
        · exact forall₂_proper_user hU c4 c hc
        · exact forall₂_proper_piece c5 hex c hc
        · exact proper_ineq _ _
        · exact proper_ineq _ _
        · exact proper_eq _ _
      · simp only [o2, List.flatMap_append, libPars_append, forall₂_pars_user hU c4, forall₂_pars_piece c5]
        simp [lowerCon, upperCon, sumCon, conPars, ConBody.leaves, const, wExpr, real, sumExpr]
      · intro c hc
        simp only [o2, List.mem_append, List.mem_singleton] at hc
        have hm : ∀ c, (c ∈ us ∨ c ∈ es) → idLt (h.nextId + 1 + 1 + 1) c.id := by
          intro c hc
          refine (b.ids c ?_).mono (by omega)
          rw [c1]; simp [hc]
        rcases hc with ((hc | rfl) | rfl) | rfl
        · exact hm c hc
        · show h.nextId < h.nextId + 1 + 1 + 1; omega
        · show h.nextId + 1 < h.nextId + 1 + 1 + 1; omega
        · show h.nextId + 1 + 1 < h.nextId + 1 + 1 + 1; omega
      · intro e
        have k : ∀ i b, Con.sat (⟨i, b, always⟩ : Con n) e ↔ b.sat e := by simp [Con.sat, always]
        simp only [o2, List.forall_mem_append, List.forall_mem_singleton, forall₂_sat c4, forall₂_piece c5,
          k, sat_sum]
        have hw : (lowerCon (fun _ => -1) : ConBody Par (Env n)).sat e ∧ (upperCon (fun _ => 1)).sat e ↔
            Within cfg true e.asg.w := by
          rw [sat_bounds]
          unfold Within
          rw [if_pos ⟨rfl, hb0⟩]
          refine forall_congr' fun i => and_congr ?_ ?_
          · rw [show (-1 : EReal) = ((-1 : ℝ) : EReal) by rw [EReal.coe_neg, EReal.coe_one]]
            exact EReal.coe_le_coe_iff
          · rw [← EReal.coe_one]
            exact EReal.coe_le_coe_iff
        rw [← hw]
        simp only [if_true]
        tauto

end Verif.Convex
