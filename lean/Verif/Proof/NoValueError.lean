import Verif.Proof.ConvexReturn
import Verif.Spec.Portfolio

/-! Which calls raise no ValueError. -/

noncomputable section

namespace Verif.Convex
open Verif.Py Verif.Base Matrix

variable {n : ℕ} {U : Uni n} {S : Solver n} {D : Data n} {cfg : Cfg n} {α β : Type}

/-- The object may be given an objective and solved. -/
def Fine (o : OState n) : Prop :=
  o.opt ≠ none ∨ usable o.cons ∧ ∀ a ∈ o.added, a.body.scalar = true

/-- It has an objective, too. -/
def Set' (o : OState n) : Prop :=
  o.opt ≠ none ∨ usable o.cons ∧ (∀ a ∈ o.added, a.body.scalar = true) ∧
    ∀ ob, o.objective = some ob → ob.body.scalar = true

/-- From `P`, no ValueError, and `Q` afterwards. -/
def NV (P Q : OState n → Prop) (m : M n α) : Prop :=
  ∀ o h, P o → (m o h).1 ≠ .error .valueError ∧ ∀ a, (m o h).1 = .ok a → Q (m o h).2.1

theorem NV.bind {P Q R : OState n → Prop} {m : M n α} {f : α → M n β} (hm : NV P Q m) (hf : ∀ a, NV Q R (f a)) :
    NV P R (m >>= f) := by
  intro o h hP
  have k := hm o h hP
  rcases e : m o h with ⟨r, o', h'⟩
  rw [e] at k
  cases r with
  | error x =>
    rw [bind_err e]
    exact ⟨fun hx => k.1 (by cases hx; rfl), nofun⟩
  | ok a =>
    rw [bind_ok e]
    exact hf a o' h' (k.2 a rfl)

theorem NV.raise {P Q : OState n → Prop} {e : PyErr} (he : e ≠ .valueError) : NV P Q (Convex.raise e : M n α) :=
  fun _ _ _ => ⟨fun h => he (Except.error.inj h), nofun⟩

theorem NV.pure {P : OState n → Prop} (a : α) : NV P P (Pure.pure a : M n α) :=
  fun _ _ hP => ⟨nofun, fun _ _ => hP⟩

theorem NV.ite {P Q : OState n → Prop} {c : Prop} [Decidable c] {m m' : M n α} (h1 : NV P Q m) (h2 : NV P Q m') :
    NV P Q (if c then m else m') := by
  split
  · exact h1
  · exact h2

theorem NV.guard {P Q : OState n → Prop} {c : Prop} [Decidable c] {e : PyErr} (he : e ≠ .valueError)
    {f : PUnit → M n α} (hf : NV P Q (f ⟨⟩)) : NV P Q (if c then (Convex.raise e >>= f) else f ⟨⟩) :=
  .ite (.bind (Q := P) (.raise he) fun _ => hf) hf

theorem scan_noVE (name : String) (l : List (Except PyErr (List Par)))
    (hl : ∀ e, .error e ∈ l → e ≠ .valueError) (b : Bool) : scan name l b ≠ .error .valueError := by
  induction l generalizing b with
  | nil => exact nofun
  | cons x l ih =>
    have ih := ih fun e he => hl e (List.mem_cons_of_mem _ he)
    cases x with
    | error e =>
      intro h
      exact hl e (List.mem_cons_self ..) (Except.error.inj h)
    | ok ps =>
      unfold scan
      split
      · exact ih _
      · exact ih _
      · exact nofun

theorem NV.isDefined {P : OState n → Prop} (name : String) : NV P P (isDefined name : M n Bool) := by
  intro o h hP
  refine ⟨scan_noVE name _ (fun e he => ?_) false, fun _ _ => hP⟩
  rw [leavesOf, List.mem_append] at he
  rcases he with he | he
  · obtain ⟨c, -, hc⟩ := List.mem_map.1 he
    cases hb : c.body <;> rw [hb] at hc <;> cases hc <;> exact nofun
  · cases ho : o.objective with
    | none => rw [ho] at he; cases he
    | some ob => rw [ho] at he; simp at he

theorem NV.get {P : OState n → Prop} : NV P P (Convex.get : M n (OState n)) := fun _ _ hP => ⟨nofun, fun _ _ => hP⟩

theorem NV.modify {P Q : OState n → Prop} {f : OState n → OState n} (hf : ∀ o, P o → Q (f o)) :
    NV P Q (Convex.modify f) := fun o _ hP => ⟨nofun, fun _ _ => hf o hP⟩

theorem NV.freshId {P : OState n → Prop} : NV P P (Convex.freshId : M n Ref) :=
  fun _ _ hP => ⟨nofun, fun _ _ => hP⟩

theorem NV.validateNeutral {P : OState n → Prop} (mn : Bool) : NV P P (validateNeutral mn : M n Unit) :=
  .bind .get fun _ => .ite (.raise (by decide)) (.pure _)

theorem NV.setPars {P : OState n → Prop} {v : ℝ} (hv : 0 ≤ v) (l : List Par) : NV P P (setPars v l : M n Unit) := by
  induction l with
  | nil => exact .pure _
  | cons p l ih =>
    intro o h hP
    unfold Convex.setPars
    rw [if_neg (fun k => absurd k.2 (not_lt.2 hv))]
    exact ih o _ hP

theorem NV.updatePar {P : OState n → Prop} (name : String) {v : ℝ} (hv : 0 ≤ v) :
    NV P P (updatePar name v : M n Unit) :=
  .bind (.isDefined _) fun _ => .guard (by decide) (.bind .get fun _ => .setPars hv _)

theorem NV.setObjective (ps : List Par) (f : Env n → EReal) : NV Fine Set' (setObjective ps f) :=
  .bind .freshId fun i => .modify fun o ho => by
    rcases ho with ho | ⟨h1, h2⟩
    · exact .inl ho
    · refine .inr ⟨h1, h2, fun ob hob => ?_⟩
      cases hob
      rfl

theorem NV.addEach (l : List (Obj n)) (hl : ∀ a ∈ l, a.body.scalar = true) : NV Set' Set' (addEach l : M n Unit) := by
  induction l with
  | nil => exact .pure _
  | cons b l ih =>
    intro o h ho
    unfold Convex.addEach
    rw [bind_ok (a := o) (o' := o) (h' := h) rfl]
    cases hob : o.objective with
    | none => exact ⟨nofun, nofun⟩
    | some a =>
      dsimp only
      refine NV.bind (P := fun o' => o' = o) (Q := fun o' => o' = o) (R := Set') .freshId (fun i => ?_) o h rfl
      refine NV.bind (.modify (Q := Set') ?_) fun _ => ih fun x hx => hl x (List.mem_cons_of_mem _ hx)
      rintro _ rfl
      rcases ho with ho | ⟨h1, h2, h3⟩
      · exact .inl ho
      · refine .inr ⟨h1, h2, fun ob hob' => ?_⟩
        cases hob'
        have e1 := h3 a hob
        have e2 := hl b (List.mem_cons_self ..)
        simp [addTo, e1, e2]

theorem addEach_opt (l : List (Obj n)) (o : OState n) (h : Heap n) (hopt : o.opt ≠ none) :
    (addEach l o h).1 ≠ .error .valueError ∧ ∀ a, (addEach l o h).1 = .ok a → Set' (addEach l o h).2.1 := by
  induction l generalizing o h with
  | nil => exact ⟨nofun, fun _ _ => .inl hopt⟩
  | cons b l ih =>
    unfold Convex.addEach
    rw [bind_ok (a := o) (o' := o) (h' := h) rfl]
    cases hob : o.objective with
    | none => exact ⟨nofun, nofun⟩
    | some a =>
      exact ih { o with objective := some (addTo a b (.lib h.nextId)) } { h with nextId := h.nextId + 1 } hopt

theorem NV.addAll : NV Set' Set' (addAll : M n Unit) := by
  intro o h ho
  show (Convex.addEach o.added o h).1 ≠ _ ∧ _
  rcases ho with ho | ⟨h1, h2, h3⟩
  · exact addEach_opt _ o h ho
  · exact NV.addEach o.added h2 o h (.inr ⟨h1, h2, h3⟩)

theorem NV.newPar {P : OState n → Prop} (name : String) {v : ℝ} {nn : Bool} (hv : nn = true → 0 ≤ v) :
    NV P P (newPar name v nn : M n Par) := by
  intro o h hP
  unfold Convex.newPar
  rw [if_neg (fun k => absurd k.2 (not_lt.2 (hv k.1)))]
  exact ⟨nofun, fun _ _ => hP⟩

theorem NV.addLib (body : ConBody Par (Env n)) (hb : body ≠ .junk) (dom : Env n → Prop) :
    NV Set' Set' (addLib body dom) := by
  refine .bind .get fun _ => .guard (by decide) (.bind .freshId fun _ => .modify ?_)
  rintro o (ho | ⟨h1, h2, h3⟩)
  · exact .inl ho
  · refine .inr ⟨?_, h2, h3⟩
    intro c hc
    rcases List.mem_append.1 hc with hc | hc
    · exact h1 c hc
    · rw [List.mem_singleton.1 hc]; exact hb

theorem NV.addIneq {m : ℕ} (a b : Expr Par (Env n) m) : NV Set' Set' (Convex.addLib (.ineq m a b)) :=
  .addLib _ (fun h => by cases h) _

theorem NV.amendBounds : NV Set' Set' (amendBounds : M n Unit) := by
  refine .bind .get fun _ => .ite (.bind (.bind (.modify fun o ho => ho) fun _ => .bind (NV.addLib (lowerCon _) nofun _) fun _ =>
    NV.addLib (upperCon _) nofun _) fun _ => .modify ?_) (.pure _)
  rintro o (ho | ⟨h1, h2, h3⟩)
  · exact .inl ho
  · exact .inr ⟨fun c hc => h1 c (List.mem_of_mem_drop hc), h2, h3⟩

theorem NV.makeWeightSum (mn : Bool) : NV Set' Set' (makeWeightSum mn : M n Unit) := by
  refine .bind (Q := Set') ?_ fun _ => .modify fun o ho => ho
  unfold sumConstraint
  exact .ite (.bind .amendBounds fun _ => .addLib (sumCon 0) nofun _) (.addLib (sumCon 1) nofun _)

theorem NV.returnExpr {P : OState n → Prop} (b : Bool) : NV P P (returnExpr D b) := by
  unfold Convex.returnExpr
  cases D.mu with
  | none => exact .raise nofun
  | some mu => exact .pure _

theorem NV.varianceExpr {P : OState n → Prop} (hs : D.symOk = true) : NV P P (varianceExpr D) := by
  unfold Convex.varianceExpr
  rw [if_pos hs]
  exact .pure _

theorem callSolver_noVE (hv : ∀ k P, S k P ≠ .raised .valueError) (p : Opt n) (o : OState n) (h : Heap n) :
    (callSolver S p o h).1 ≠ .error .valueError := by
  unfold callSolver
  dsimp only
  split
  · exact nofun
  · exact nofun
  · exact nofun
  · exact nofun
  · rename_i e _ _ he
    intro k
    cases k
    exact hv _ _ he

theorem idsOf_noVE (l : List (Con n)) : idsOf l ≠ .error .valueError := by
  induction l with
  | nil => exact nofun
  | cons c l ih =>
    unfold idsOf
    split
    · exact nofun
    · cases hl : idsOf l with
      | error e => rw [hl] at ih; intro k; exact ih (by cases k; rfl)
      | ok l => exact nofun

theorem NV.solve (hv : ∀ k P, S k P ≠ .raised .valueError) : NV Set' (fun _ => True) (Convex.solve S) := by
  intro o h ho
  refine ⟨?_, fun _ _ => trivial⟩
  unfold Convex.solve
  rw [bind_ok (a := o) (o' := o) (h' := h) rfl]
  cases hopt : o.opt with
  | none =>
    dsimp only
    cases hob : o.objective with
    | none => exact nofun
    | some ob =>
      dsimp only
      obtain ⟨h1, -, h3⟩ := ho.resolve_left (not_not.2 hopt)
      rw [if_neg (by
        rintro (k | k)
        · exact k (h3 ob hob)
        · exact k h1)]
      cases hi : idsOf o.cons with
      | error e =>
        dsimp only
        rw [bind_ok (a := ()) (o' := { o with opt := some ⟨ob, o.cons, ob.id, none⟩ }) (h' := h) rfl]
        intro k
        cases k
        exact idsOf_noVE _ hi
      | ok ids =>
        dsimp only
        rw [bind_ok (a := ()) (o' := { o with opt := some ⟨ob, o.cons, ob.id, some ids⟩ }) (h' := h) rfl]
        exact callSolver_noVE hv _ _ _
  | some p =>
    dsimp only
    cases hob : o.objective with
    | none => exact nofun
    | some ob =>
      dsimp only
      split
      · exact nofun
      · cases hi : idsOf o.cons with
        | error e =>
          rw [bind_err (e := e) (o' := o) (h' := h) rfl]
          intro k
          cases k
          exact idsOf_noVE _ hi
        | ok ids =>
          rw [bind_ok (a := ids) (o' := o) (h' := h) rfl]
          cases p.initCons with
          | none => exact nofun
          | some ini =>
            dsimp only
            split
            · exact nofun
            · exact callSolver_noVE hv _ _ _

/-- The pattern of the target methods. -/
theorem withParameter_noVE (hU : Usable U D) {name : String} (hn : name ∈ libNames) {mn : Bool} {v : ℝ}
    {build : M n Unit} {o : OState n} {h : Heap n} (g : Good U D cfg o h)
    (hv : ∀ k P, S k P ≠ .raised .valueError) (hb : NV Fine Set' build) (h0 : 0 ≤ v ∨ o.opt = none) :
    (withParameter S name mn v build o h).1 ≠ .error .valueError := by
  rcases g with ⟨b, hob⟩ | ⟨p, s⟩
  · rw [withParameter_clean hU b hob hn]
    refine (NV.bind hb (fun _ => NV.solve hv) o h (.inr ⟨fun c hc => (b.proper hU (by simp) c hc).2, ?_⟩)).1
    rw [b.added]
    intro a ha
    obtain ⟨i, -, rfl⟩ := List.mem_map.1 ha
    exact hU.scalar i
  · have ho : o.opt ≠ none := by rw [s.opt]; exact nofun
    have h0 := h0.resolve_right ho
    have : NV (fun o : OState n => o.opt ≠ none) (fun _ => True) (withParameter S name mn v build) := by
      refine .bind (.isDefined name) fun b => ?_
      have hs : NV (fun o : OState n => o.opt ≠ none) (fun _ => True) (Convex.solve S) :=
        fun o h ho => NV.solve hv o h (.inl ho)
      have hB : NV (fun o : OState n => o.opt ≠ none) Set' build := fun o h ho => hb o h (.inl ho)
      exact .ite (.bind (.validateNeutral mn) fun _ => .bind (.updatePar name h0) fun _ => hs)
        (.bind hB fun _ => .solve hv)
    exact (this o h ho).1

end Verif.Convex
