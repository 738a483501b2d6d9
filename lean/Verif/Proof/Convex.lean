import Verif.Spec.Convex

/-! Running the optimizer model: evaluation lemmas for the building blocks. -/

noncomputable section

namespace Verif.Convex
open Verif.Py Verif.Base

variable {n : ℕ} {U : Uni n} {S : Solver n} {D : Data n}

theorem bind_run {α β : Type} (x : M n α) (f : α → M n β) (o : OState n) (h : Heap n) :
    (x >>= f) o h = match x o h with
      | (.error e, o', h') => (.error e, o', h')
      | (.ok a, o', h') => f a o' h' := rfl

theorem bind_ok {α β : Type} {x : M n α} {f : α → M n β} {o o' : OState n} {h h' : Heap n} {a : α}
    (hx : x o h = (.ok a, o', h')) : (x >>= f) o h = f a o' h' := by
  rw [bind_run, hx]

theorem bind_err {α β : Type} {x : M n α} {f : α → M n β} {o o' : OState n} {h h' : Heap n} {e : PyErr}
    (hx : x o h = (.error e, o', h')) : (x >>= f) o h = (.error e, o', h') := by
  rw [bind_run, hx]

@[simp] theorem pure_run {α : Type} (a : α) (o : OState n) (h : Heap n) :
    (pure a : M n α) o h = (.ok a, o, h) := rfl

@[simp] theorem raise_run {α : Type} (e : PyErr) (o : OState n) (h : Heap n) :
    (raise e : M n α) o h = (.error e, o, h) := rfl

/-- The objective after `for obj in l: self._objective += obj`, with identifiers from `k` on. -/
def sumObj (a : Obj n) : List (Obj n) → ℕ → Obj n
  | [], _ => a
  | b :: l, k => sumObj (addTo a b (.lib k)) l (k + 1)

theorem addEach_run (l : List (Obj n)) (a : Obj n) (o : OState n) (h : Heap n)
    (ha : o.objective = some a) :
    addEach l o h = (.ok (), { o with objective := some (sumObj a l h.nextId) },
      { h with nextId := h.nextId + l.length }) := by
  induction l generalizing a o h with
  | nil =>
    show (Except.ok (), o, h) = _
    simp only [sumObj, List.length_nil, Nat.add_zero, ← ha]
  | cons b l ih =>
    have e : addEach (b :: l) o h = addEach l { o with objective := some (addTo a b (.lib h.nextId)) }
        { h with nextId := h.nextId + 1 } := by
      rw [addEach, bind_ok (a := o) (o' := o) (h' := h) rfl]
      simp only [ha]
      rfl
    rw [e, ih (addTo a b (.lib h.nextId)) _ _ rfl]
    simp only [sumObj, List.length_cons]
    congr 3
    omega

theorem addAll_run (a : Obj n) (o : OState n) (h : Heap n) (ha : o.objective = some a) :
    addAll o h = (.ok (), { o with objective := some (sumObj a o.added h.nextId) },
      { h with nextId := h.nextId + o.added.length }) := by
  rw [addAll, bind_ok (a := o) (o' := o) (h' := h) rfl, addEach_run o.added a o h ha]

theorem setObjective_run (ps : List Par) (f : Env n → EReal) (o : OState n) (h : Heap n) :
    setObjective ps f o h = (.ok (), { o with objective := some ⟨.lib h.nextId, true, ps, f⟩ },
      { h with nextId := h.nextId + 1 }) := rfl

theorem addLib_run (b : ConBody Par (Env n)) (d : Env n → Prop) (o : OState n) (h : Heap n)
    (ho : o.opt = none) :
    addLib b d o h = (.ok (), { o with cons := o.cons ++ [⟨.lib h.nextId, b, d⟩] },
      { h with nextId := h.nextId + 1 }) := by
  rw [addLib, bind_ok (a := o) (o' := o) (h' := h) rfl]
  rw [ho]
  exact (bind_ok (a := Ref.lib h.nextId) (o' := o) (h' := { h with nextId := h.nextId + 1 }) rfl).trans
    (by simp only [modify, ho])

theorem addLib_solved (b : ConBody Par (Env n)) (d : Env n → Prop) (o : OState n) (h : Heap n)
    {p : Opt n} (ho : o.opt = some p) : addLib b d o h = (.error .instantiation, o, h) := by
  rw [addLib, bind_ok (a := o) (o' := o) (h' := h) rfl]
  simp only [ho, Option.isSome_some, if_true]
  rfl

theorem newPar_run (nm : String) (v : ℝ) (nn : Bool) (o : OState n) (h : Heap n)
    (hv : ¬ (nn = true ∧ v < 0)) :
    newPar nm v nn o h = (.ok ⟨nm, nn, .lib h.nextPar⟩, o,
      { h with nextPar := h.nextPar + 1, lpar := Function.update h.lpar h.nextPar v }) := by
  rw [newPar, if_neg hv]

theorem newPar_err (nm : String) (v : ℝ) (nn : Bool) (o : OState n) (h : Heap n)
    (hv : nn = true ∧ v < 0) : newPar nm v nn o h = (.error .valueError, o, h) := by
  rw [newPar, if_pos hv]

/-! ### Methods on an object that has been optimised -/

/-- `a` differs from `b` in the objective (which is then a new object), the bounds and the risk-free
rate only. -/
structure Same (o : OState n) (h : Heap n) (o' : OState n) (h' : Heap n) : Prop where
  opt : o'.opt = o.opt
  cons : o'.cons = o.cons
  added : o'.added = o.added
  neutral : o'.neutral = o.neutral
  weights : o'.weights = o.weights
  maxRet : o'.maxRet = o.maxRet
  objective : o'.objective = o.objective ∨ ∃ ob i, o'.objective = some ob ∧ ob.id = .lib i ∧
    h.nextId ≤ i ∧ i < h'.nextId
  log : h'.log = h.log
  upar : h'.upar = h.upar
  vals : h'.vals = h.vals
  nextId : h.nextId ≤ h'.nextId
  nextPar : h.nextPar ≤ h'.nextPar
  nextVar : h.nextVar ≤ h'.nextVar

theorem Same.refl (o : OState n) (h : Heap n) : Same o h o h :=
  ⟨rfl, rfl, rfl, rfl, rfl, rfl, .inl rfl, rfl, rfl, rfl, le_rfl, le_rfl, le_rfl⟩

theorem Same.trans {o o' o'' : OState n} {h h' h'' : Heap n} (a : Same o h o' h') (b : Same o' h' o'' h'') :
    Same o h o'' h'' := by
  refine ⟨b.opt.trans a.opt, b.cons.trans a.cons, b.added.trans a.added, b.neutral.trans a.neutral,
    b.weights.trans a.weights, b.maxRet.trans a.maxRet, ?_, b.log.trans a.log, b.upar.trans a.upar,
    b.vals.trans a.vals, a.nextId.trans b.nextId, a.nextPar.trans b.nextPar, a.nextVar.trans b.nextVar⟩
  rcases b.objective with e | ⟨ob, i, e, hi, h1, h2⟩
  · rcases a.objective with e' | ⟨ob, i, e', hi, h1, h2⟩
    · exact .inl (e.trans e')
    · exact .inr ⟨ob, i, e.trans e', hi, h1, h2.trans_le b.nextId⟩
  · exact .inr ⟨ob, i, e, hi, a.nextId.trans h1, h2⟩

/-- On a solved object the program changes nothing of importance. -/
def Quiet {α : Type} (x : M n α) : Prop :=
  ∀ o h, o.opt ≠ none → Same o h (x o h).2.1 (x o h).2.2

/-- On a solved object the program raises. -/
def Raises {α : Type} (x : M n α) : Prop := ∀ o h, o.opt ≠ none → ∃ e, (x o h).1 = .error e

theorem Quiet.pure {α : Type} (a : α) : Quiet (pure a : M n α) := fun o h _ => Same.refl o h

theorem Quiet.raise {α : Type} (e : PyErr) : Quiet (raise e : M n α) := fun o h _ => Same.refl o h

theorem Quiet.lift {α : Type} (r : Except PyErr α) : Quiet (lift r : M n α) := fun o h _ => Same.refl o h

theorem Quiet.get : Quiet (get : M n _) := fun o h _ => Same.refl o h

theorem Quiet.bind {α β : Type} {x : M n α} {f : α → M n β} (hx : Quiet x) (hf : ∀ a, Quiet (f a)) :
    Quiet (x >>= f) := by
  intro o h ho
  have h1 := hx o h ho
  rw [bind_run]
  rcases hr : x o h with ⟨r, o', h'⟩
  rw [hr] at h1
  cases r with
  | error e => exact h1
  | ok a => exact h1.trans (hf a o' h' (by rw [h1.opt]; exact ho))

theorem Raises.left {α β : Type} {x : M n α} {f : α → M n β} (hx : Raises x) : Raises (x >>= f) := by
  intro o h ho
  obtain ⟨e, he⟩ := hx o h ho
  refine ⟨e, ?_⟩
  rw [bind_run]
  rcases hr : x o h with ⟨r, o', h'⟩
  rw [hr] at he
  dsimp only at he
  subst he
  rfl

theorem Raises.right {α β : Type} {x : M n α} {f : α → M n β} (hx : Quiet x) (hf : ∀ a, Raises (f a)) :
    Raises (x >>= f) := by
  intro o h ho
  have h1 := hx o h ho
  rw [bind_run]
  rcases hr : x o h with ⟨r, o', h'⟩
  rw [hr] at h1
  cases r with
  | error e => exact ⟨e, rfl⟩
  | ok a => exact hf a o' h' (by rw [h1.opt]; exact ho)

theorem Raises.raise {α : Type} (e : PyErr) : Raises (raise e : M n α) := fun _ _ _ => ⟨e, rfl⟩

theorem Quiet.ite {α : Type} {c : Prop} [Decidable c] {x y : M n α} (hx : Quiet x) (hy : Quiet y) :
    Quiet (if c then x else y) := by split <;> assumption

theorem Raises.ite {α : Type} {c : Prop} [Decidable c] {x y : M n α} (hx : Raises x) (hy : Raises y) :
    Raises (if c then x else y) := by split <;> assumption

theorem Quiet.addLib (b : ConBody Par (Env n)) (d : Env n → Prop) : Quiet (addLib b d) := by
  intro o h ho
  obtain ⟨p, hp⟩ := Option.ne_none_iff_exists'.1 ho
  rw [addLib_solved b d o h hp]
  exact Same.refl o h

theorem Raises.addLib (b : ConBody Par (Env n)) (d : Env n → Prop) : Raises (addLib b d) := by
  intro o h ho
  obtain ⟨p, hp⟩ := Option.ne_none_iff_exists'.1 ho
  exact ⟨_, by rw [addLib_solved b d o h hp]⟩

theorem Quiet.freshVar : Quiet (freshVar : M n _) := fun _ _ _ =>
  ⟨rfl, rfl, rfl, rfl, rfl, rfl, .inl rfl, rfl, rfl, rfl, le_rfl, le_rfl, Nat.le_succ _⟩

theorem Quiet.freshId : Quiet (freshId : M n _) := fun _ _ _ =>
  ⟨rfl, rfl, rfl, rfl, rfl, rfl, .inl rfl, rfl, rfl, rfl, Nat.le_succ _, le_rfl, le_rfl⟩

theorem Quiet.newPar (nm : String) (v : ℝ) (nn : Bool) : Quiet (newPar nm v nn : M n _) := by
  intro o h _
  unfold Convex.newPar
  split
  · exact Same.refl o h
  · exact ⟨rfl, rfl, rfl, rfl, rfl, rfl, .inl rfl, rfl, rfl, rfl, le_rfl, Nat.le_succ _, le_rfl⟩

theorem Quiet.setObjective (ps : List Par) (f : Env n → EReal) : Quiet (setObjective ps f) := by
  intro o h _
  rw [setObjective_run]
  exact ⟨rfl, rfl, rfl, rfl, rfl, rfl, .inr ⟨_, _, rfl, rfl, le_rfl, Nat.lt_succ_self _⟩, rfl, rfl, rfl,
    Nat.le_succ _, le_rfl, le_rfl⟩

theorem sumObj_id (a : Obj n) (l : List (Obj n)) (k : ℕ) :
    (l = [] ∧ sumObj a l k = a) ∨
      ∃ i, (sumObj a l k).id = .lib i ∧ k ≤ i ∧ i < k + l.length := by
  induction l generalizing a k with
  | nil => exact .inl ⟨rfl, rfl⟩
  | cons b l ih =>
    right
    rw [sumObj]
    rcases ih (addTo a b (.lib k)) (k + 1) with ⟨h1, h2⟩ | ⟨i, h1, h2, h3⟩
    · rw [h2]
      exact ⟨k, rfl, le_rfl, by simp⟩
    · exact ⟨i, h1, by omega, by simp only [List.length_cons]; omega⟩

theorem Quiet.addAll : Quiet (addAll : M n _) := by
  intro o h _
  rcases ho : o.objective with _ | a
  · have e : Convex.addAll o h = addEach o.added o h := rfl
    rw [e]
    cases hl : o.added with
    | nil => exact Same.refl o h
    | cons b l =>
      have e : addEach (b :: l) o h = (.error .typeError, o, h) := by
        rw [addEach, bind_ok (a := o) (o' := o) (h' := h) rfl]
        simp only [ho, raise_run]
      rw [e]; exact Same.refl o h
  · rw [addAll_run a o h ho]
    refine ⟨rfl, rfl, rfl, rfl, rfl, rfl, ?_, rfl, rfl, rfl, Nat.le_add_right _ _, le_rfl, le_rfl⟩
    rcases sumObj_id a o.added h.nextId with ⟨h1, h2⟩ | ⟨i, h1, h2, h3⟩
    · left; rw [ho, h2]
    · exact .inr ⟨_, i, rfl, h1, h2, h3⟩

theorem Quiet.varianceExpr : Quiet (varianceExpr D) := by
  unfold Convex.varianceExpr; exact .ite (.pure _) (.raise _)

theorem Quiet.returnExpr (b : Bool) : Quiet (returnExpr D b) := by
  unfold Convex.returnExpr; split
  · exact .raise _
  · exact .pure _

theorem Quiet.muTimesW : Quiet (muTimesW D) := by
  unfold Convex.muTimesW; split
  · exact .raise _
  · exact .pure _

theorem Quiet.tailCoef : Quiet (tailCoef D) := by
  unfold Convex.tailCoef; exact .ite (.raise _) (.pure _)

theorem Quiet.cvarExpr : Quiet (cvarExpr D) := .bind .tailCoef fun _ => .pure _

theorem Quiet.cdarExpr : Quiet (cdarExpr D) := .bind .tailCoef fun _ => .pure _

theorem Quiet.cvarCons : Quiet (cvarCons D) := .bind (.addLib _ _) fun _ => .addLib _ _

theorem Raises.cvarCons : Raises (cvarCons D) := .left (.addLib _ _)

theorem Quiet.cdarCons : Quiet (cdarCons D) :=
  .bind (.addLib _ _) fun _ => .bind (.addLib _ _) fun _ => .bind (.addLib _ _) fun _ =>
    .bind (.addLib _ _) fun _ => .addLib _ _

theorem Raises.cdarCons : Raises (cdarCons D) := .left (.addLib _ _)

theorem Quiet.semiCon (p q : ℕ) : Quiet (semiCon D p q) := .addLib _ _

theorem Raises.semiCon (p q : ℕ) : Raises (semiCon D p q) := .addLib _ _

theorem Quiet.mapBounds (lb ub : Fin n → EReal) : Quiet (mapBounds lb ub) :=
  .bind (fun _ _ _ => ⟨rfl, rfl, rfl, rfl, rfl, rfl, .inl rfl, rfl, rfl, rfl, le_rfl, le_rfl, le_rfl⟩)
    fun _ => .bind (.addLib _ _) fun _ => .addLib _ _

theorem Raises.mapBounds (lb ub : Fin n → EReal) : Raises (mapBounds lb ub) :=
  .right (fun _ _ _ => ⟨rfl, rfl, rfl, rfl, rfl, rfl, .inl rfl, rfl, rfl, rfl, le_rfl, le_rfl, le_rfl⟩)
    fun _ => .left (.addLib _ _)

/-- On a solved object `_make_weight_sum_constraint` raises before it reaches the list surgery. -/
theorem makeWeightSum_solved (mn : Bool) (o : OState n) (h : Heap n) (ho : o.opt ≠ none) :
    (makeWeightSum mn o h).1 = .error .instantiation ∧
      Same o h (makeWeightSum mn o h).2.1 (makeWeightSum mn o h).2.2 := by
  obtain ⟨p, hp⟩ := Option.ne_none_iff_exists'.1 ho
  cases mn with
  | false =>
    have : makeWeightSum false o h = (.error .instantiation, o, h) :=
      bind_err (addLib_solved _ _ o h hp)
    rw [this]; exact ⟨rfl, Same.refl o h⟩
  | true =>
    by_cases hb : ∃ i, o.lb i < 0
    · have e : amendBounds o h = (.ok (), o, h) := by
        unfold amendBounds
        rw [bind_ok (a := o) (o' := o) (h' := h) rfl, if_neg (not_not.2 hb)]
        rfl
      have : makeWeightSum true o h = (.error .instantiation, o, h) :=
        bind_err ((bind_ok e).trans (addLib_solved _ _ o h hp))
      rw [this]; exact ⟨rfl, Same.refl o h⟩
    · have e : mapBounds (fun _ => -1) (fun _ => 1) o h =
          (.error .instantiation, { o with lb := fun _ => -1, ub := fun _ => 1 }, h) := by
        unfold Convex.mapBounds
        rw [bind_ok (a := ()) (o' := { o with lb := fun _ => -1, ub := fun _ => 1 }) (h' := h) rfl]
        rw [bind_err (addLib_solved _ _ { o with lb := fun _ => -1, ub := fun _ => 1 } h hp)]
      have e' : amendBounds o h =
          (.error .instantiation, { o with lb := fun _ => -1, ub := fun _ => 1 }, h) := by
        unfold amendBounds
        rw [bind_ok (a := o) (o' := o) (h' := h) rfl, if_pos hb]
        exact bind_err e
      have : makeWeightSum true o h =
          (.error .instantiation, { o with lb := fun _ => -1, ub := fun _ => 1 }, h) :=
        bind_err (bind_err e')
      rw [this]
      exact ⟨rfl, rfl, rfl, rfl, rfl, rfl, rfl, .inl rfl, rfl, rfl, rfl, le_rfl, le_rfl, le_rfl⟩

theorem Quiet.makeWeightSum (mn : Bool) : Quiet (makeWeightSum mn : M n _) :=
  fun o h ho => (makeWeightSum_solved mn o h ho).2

theorem Raises.makeWeightSum (mn : Bool) : Raises (makeWeightSum mn : M n _) :=
  fun o h ho => ⟨_, (makeWeightSum_solved mn o h ho).1⟩

end Verif.Convex
