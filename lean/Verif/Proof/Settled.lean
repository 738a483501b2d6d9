import Verif.Proof.Spoiled

/-! The problem stored by methods without a target: it has none of the library's parameters. -/

noncomputable section

namespace Verif.Convex
open Verif.Py Verif.Base Matrix

variable {n : ℕ} {U : Uni n} {S : Solver n} {D : Data n} {cfg : Cfg n} {q : Bool}

/-- Not optimised, and no parameter of the library in use; with `q`, the objective is one of the library's. -/
structure Plain (q : Bool) (o : OState n) : Prop where
  opt : o.opt = none
  cons : ∀ c ∈ o.cons, libPars (conPars c.body) = []
  obj : ∀ ob, o.objective = some ob → libPars ob.body.params = [] ∧ (q = true → ∃ k, ob.id = .lib k)
  added : ∀ x ∈ o.added, libPars x.body.params = []

/-- Optimised, with a problem without parameters of the library. -/
def Settled (q : Bool) (o : OState n) : Prop :=
  ∃ p, o.opt = some p ∧ libPars p.pars = [] ∧ (q = true → ∃ k, p.obj.id = .lib k) ∧ o.objective = some p.obj ∧ o.cons = p.cons

def Flat (q : Bool) {α : Type} (x : M n α) : Prop := ∀ o h, Plain q o → Plain q (x o h).2.1

def Lays (q r : Bool) {α : Type} (x : M n α) : Prop := ∀ o h, Plain q o → ∀ a, (x o h).1 = .ok a → Settled r (x o h).2.1

namespace Flat
variable {α β : Type}

theorem pure (a : α) : Flat q (Pure.pure a : M n α) := fun _ _ h => h
theorem raise (e : PyErr) : Flat q (raise e : M n α) := fun _ _ h => h
theorem lift (r : Except PyErr α) : Flat q (lift r : M n α) := fun _ _ h => h
theorem get : Flat q (get : M n _) := fun _ _ h => h
theorem freshId : Flat q (freshId : M n _) := fun _ _ h => h
theorem freshVar : Flat q (freshVar : M n _) := fun _ _ h => h

theorem bind {x : M n α} {f : α → M n β} (hx : Flat q x) (hf : ∀ a, Flat q (f a)) : Flat q (x >>= f) := by
  intro o h hs
  rw [bind_run]
  have k := hx o h hs
  rcases hr : x o h with ⟨r, o', h'⟩
  rw [hr] at k
  cases r with
  | error e => exact k
  | ok a => exact hf a o' h' k

theorem ite {c : Prop} [Decidable c] {x y : M n α} (hx : Flat q x) (hy : Flat q y) : Flat q (if c then x else y) := by
  split <;> assumption

theorem modify {f : OState n → OState n} (h : ∀ o, Plain q o → Plain q (f o)) : Flat q (modify f) := fun o _ k => h o k

theorem addLib {b : ConBody Par (Env n)} (hb : libPars (conPars b) = []) (d : Env n → Prop) : Flat q (addLib b d) := by
  intro o h k
  rw [addLib_run b d o h k.opt]
  refine ⟨k.opt, fun c hc => ?_, k.obj, k.added⟩
  rcases List.mem_append.1 hc with hc | hc
  · exact k.cons c hc
  · rw [List.mem_singleton.1 hc]; exact hb

theorem addEach (l : List (Obj n)) (hl : ∀ x ∈ l, libPars x.body.params = []) : Flat q (addEach l) := by
  induction l with
  | nil => exact pure _
  | cons b l ih =>
    intro o h k
    unfold Convex.addEach
    rw [bind_ok (a := o) (o' := o) (h' := h) rfl]
    cases ho : o.objective with
    | none => exact k
    | some a =>
      refine ih (fun x hx => hl x (List.mem_cons_of_mem _ hx)) { o with objective := some (addTo a b (.lib h.nextId)) }
        { h with nextId := h.nextId + 1 } ⟨k.opt, k.cons, ?_, k.added⟩
      rintro ob ⟨⟩
      exact ⟨by simp [addTo, (k.obj a ho).1, hl b (List.mem_cons_self ..)], fun _ => ⟨_, rfl⟩⟩

theorem addAll : Flat q (addAll : M n _) := by
  intro o h k
  exact addEach o.added k.added o h k

theorem mapBounds (lb ub : Fin n → EReal) : Flat q (mapBounds lb ub) :=
  bind (modify fun _ k => ⟨k.opt, k.cons, k.obj, k.added⟩) fun _ => bind (addLib rfl _) fun _ => addLib rfl _

theorem makeWeightSum (mn : Bool) : Flat q (makeWeightSum mn : M n _) := by
  refine bind ?_ fun _ => modify fun _ k => ⟨k.opt, k.cons, k.obj, k.added⟩
  unfold sumConstraint amendBounds
  refine ite (bind (bind get fun _ => ite (bind (mapBounds _ _) fun _ => modify fun o k =>
    ⟨k.opt, fun c hc => k.cons c (List.mem_of_mem_drop hc), k.obj, k.added⟩) (pure _)) fun _ => addLib rfl _) (addLib rfl _)

theorem cvarCons : Flat q (cvarCons D) := bind (addLib rfl _) fun _ => addLib rfl _
theorem cdarCons : Flat q (cdarCons D) :=
  bind (addLib rfl _) fun _ => bind (addLib rfl _) fun _ => bind (addLib rfl _) fun _ => bind (addLib rfl _) fun _ => addLib rfl _
theorem semiCon (a b : ℕ) : Flat q (semiCon D a b) := addLib rfl _
theorem varianceExpr : Flat q (varianceExpr D) := ite (pure _) (raise _)
theorem cvarExpr : Flat q (cvarExpr D) := bind (ite (raise _) (pure _)) fun _ => pure _
theorem cdarExpr : Flat q (cdarExpr D) := bind (ite (raise _) (pure _)) fun _ => pure _

end Flat

theorem Plain.setObjective {o : OState n} (k : Plain q o) (f : Env n → EReal) (h : Heap n) :
    Plain true (setObjective [] f o h).2.1 := by
  refine ⟨k.opt, k.cons, ?_, k.added⟩
  rintro ob ⟨⟩
  exact ⟨rfl, fun _ => ⟨_, rfl⟩⟩

namespace Lays
variable {α β : Type} {r : Bool}

theorem raise (e : PyErr) : Lays q r (raise e : M n α) := fun _ _ _ _ h => nomatch h

theorem bind {x : M n α} {f : α → M n β} (hx : Flat q x) (hf : ∀ a, Lays q r (f a)) : Lays q r (x >>= f) := by
  intro o h k a
  rw [bind_run]
  have k' := hx o h k
  rcases hr : x o h with ⟨y, o', h'⟩
  rw [hr] at k'
  cases y with
  | error e => nofun
  | ok b => exact hf b o' h' k' a

theorem obj {f : Unit → M n β} (g : Env n → EReal) (hf : ∀ a, Lays true r (f a)) : Lays q r (setObjective [] g >>= f) := by
  intro o h k a
  rw [bind_run]
  exact hf () _ _ (k.setObjective g h) a

theorem ite {c : Prop} [Decidable c] {x y : M n α} (hx : Lays q r x) (hy : Lays q r y) : Lays q r (if c then x else y) := by
  split <;> assumption

theorem solve : Lays q q (solve S) := by
  intro o h k w
  unfold Convex.solve
  rw [bind_ok (a := o) (o' := o) (h' := h) rfl, k.opt]
  dsimp only
  cases ho : o.objective with
  | none => nofun
  | some ob =>
    dsimp only
    split
    · nofun
    cases idsOf o.cons with
    | error e => nofun
    | ok ids =>
      dsimp only
      rw [bind_ok (a := ()) (o' := { o with opt := some ⟨ob, o.cons, ob.id, some ids⟩ }) (h' := h) rfl]
      have hl : libPars (⟨ob, o.cons, ob.id, some ids⟩ : Opt n).pars = [] := by
        unfold Opt.pars
        rw [libPars_append, (k.obj ob ho).1, List.append_nil]
        have hc := k.cons
        generalize o.cons = l at hc
        induction l with
        | nil => rfl
        | cons c l ih =>
          rw [List.flatMap_cons, libPars_append, hc c (List.mem_cons_self ..), List.nil_append]
          exact ih fun c hc' => hc c (List.mem_cons_of_mem _ hc')
      obtain ⟨w', vals, hc, -, -⟩ := callSolver_run (S := S) (⟨ob, o.cons, ob.id, some ids⟩ : Opt n)
        { o with opt := some ⟨ob, o.cons, ob.id, some ids⟩ } h
      rw [hc]
      exact fun _ => ⟨_, rfl, hl, (k.obj ob ho).2, ho, rfl⟩

theorem after {x : M n α} {f : α → M n β} (hx : Lays q r x)
    (hf : ∀ a o h, Settled r o → Settled r (f a o h).2.1) : Lays q r (x >>= f) := by
  intro o h k b
  rw [bind_run]
  have k' := hx o h k
  rcases hr : x o h with ⟨y, o', h'⟩
  rw [hr] at k'
  cases y with
  | error e => nofun
  | ok a => exact fun _ => hf a o' h' (k' a rfl)

end Lays

theorem lays_rebuild (k : ℕ) {l : List (Con n)} (hl : ∀ c ∈ l, libPars (conPars c.body) = []) {α : Type}
    {f : List (Con n) → M n α} (hf : ∀ new, (∀ c ∈ new, libPars (conPars c.body) = []) → Lays q q (f new)) :
    Lays q q (rebuildAll k l >>= f) := by
  intro o h pl a
  rcases rebuildAll_run k l o h with ⟨e, i, -, hr⟩ | ⟨new, i, -, hr, hn, -⟩
  · rw [bind_err hr]; nofun
  · rw [bind_ok hr]
    refine hf new ?_ _ _ pl a
    clear hr hf
    induction hn with
    | nil => simp
    | cons r _ ih =>
      obtain ⟨j, b, rfl, hb⟩ := r
      rw [List.forall_mem_cons]
      refine ⟨?_, ih fun c hc => hl c (List.mem_cons_of_mem _ hc)⟩
      show libPars (conPars b) = []
      rw [rebuild_pars hb]
      exact hl _ (List.mem_cons_self ..)

theorem lays_get {α : Type} {r : Bool} {f : OState n → M n α} (hf : ∀ o, Plain q o → Lays q r (f o)) :
    Lays q r (get >>= f) := by
  intro o h k a
  exact hf o k o h k a

/-- Methods that can be called only once. -/
def Once : Call n → Prop
  | .minVolatility | .maxSharpe _ | .minCvar _ | .minCdar _ | .minSemi _ => True
  | _ => False

theorem lays_maxSharpe (rf : ℝ) : Lays false true (maxSharpe S D rf) := by
  unfold maxSharpe
  split
  · exact .raise _
  · refine .ite (.raise _) (.bind (.modify fun _ k => ⟨k.opt, k.cons, k.obj, k.added⟩) fun _ => .bind .varianceExpr fun _ =>
      .obj _ fun _ => .bind .freshVar fun _ => .bind .addAll fun _ => lays_get fun o po => lays_rebuild _ po.cons fun new hn =>
      .bind .freshId fun _ => .bind .freshId fun _ => .bind .freshId fun _ => .bind (.modify fun o k => ?_) fun _ =>
      .after .solve fun _ o h hs => ?_)
    · refine ⟨k.opt, fun c hc => ?_, k.obj, k.added⟩
      rcases List.mem_append.1 hc with hc | hc
      · fin_cases hc <;> rfl
      · exact hn c hc
    · unfold rescale
      split
      · exact hs
      · exact hs

theorem lays_run {c : Call n} (hc : Once c) : Lays false true (run U S D c) := by
  have fin : ∀ {x : M n (Fin n → ℝ)}, run U S D c = (x >>= fun w => pure (some w)) → Lays false true x →
      Lays false true (run U S D c) := fun e hx => by rw [e]; exact hx.after fun _ _ _ hs => hs
  cases c with
  | minVolatility =>
    cases hk : D.kind with
    | ef =>
      exact fin (x := minVolatility S D) (by simp only [run, hk]) (.bind .varianceExpr fun _ => .obj _ fun _ =>
        .bind .addAll fun _ => .bind (.addLib rfl _) fun _ => .solve)
    | _ => simp only [run, hk]; exact .raise _
  | maxSharpe rf =>
    cases hk : D.kind with
    | ef => exact fin (x := maxSharpe S D rf) (by simp only [run, hk]) (lays_maxSharpe rf)
    | _ => simp only [run, hk]; exact .raise _
  | minCvar mn =>
    cases hk : D.kind with
    | cvar =>
      exact fin (x := minCvar S D mn) (by simp only [run, hk]) (.bind .cvarExpr fun _ => .obj _ fun _ =>
        .bind .addAll fun _ => .bind .cvarCons fun _ => .bind (.makeWeightSum _) fun _ => .solve)
    | _ => simp only [run, hk]; exact .raise _
  | minCdar mn =>
    cases hk : D.kind with
    | cdar =>
      refine fin (x := minCdar S D mn) (by simp only [run, hk]) ?_
      unfold minCdar buildCdar
      simp only [massoc]
      exact .bind .cdarExpr fun _ => .obj _ fun _ => .bind .addAll fun _ => .bind .cdarCons fun _ =>
        .bind (.makeWeightSum _) fun _ => .solve
    | _ => simp only [run, hk]; exact .raise _
  | minSemi mn =>
    cases hk : D.kind with
    | semi =>
      exact fin (x := minSemi S D mn) (by simp only [run, hk]) (.bind .freshVar fun _ => .bind .freshVar fun _ =>
        .obj _ fun _ => .bind .addAll fun _ => .bind (.semiCon _ _) fun _ => .bind (.makeWeightSum _) fun _ => .solve)
    | _ => simp only [run, hk]; exact .raise _
  | _ => exact hc.elim

theorem lays_convex (hU : Usable U D) (r : Except PyErr ℕ) (b : Bool) : Lays false false (run U S D (.convex r b)) := by
  refine Lays.after (x := convexObjective U S r b) ?_ fun _ _ _ hs => hs
  refine .bind (.lift _) fun i => .bind (.modify fun o k => ⟨k.opt, k.cons, ?_, k.added⟩) fun _ => .bind .addAll fun _ => ?_
  · rintro ob ⟨⟩
    exact ⟨mkObj_libPars hU i, nofun⟩
  · cases b with
    | true => exact .bind (.addLib rfl _) fun _ => .solve
    | false => exact .solve

theorem plain_of_good (hU : Usable U D) {o : OState n} {h : Heap n} (g : Good U D cfg o h) (ho : o.opt = none) :
    Plain false o := by
  rcases g with ⟨b, hb⟩ | ⟨p, s⟩
  · refine ⟨ho, fun c hc => ?_, fun ob hob => ⟨hb ob hob, nofun⟩, fun x hx => ?_⟩
    · have := b.conPars_nil hU
      have hsub : libPars (conPars c.body) ⊆ libPars (o.cons.flatMap fun c => conPars c.body) := by
        intro x hx
        unfold libPars at hx ⊢
        rw [List.mem_filter] at hx ⊢
        exact ⟨List.mem_flatMap.2 ⟨c, hc, hx.1⟩, hx.2⟩
      rw [this] at hsub
      exact List.subset_nil.1 hsub
    · rw [b.added] at hx
      obtain ⟨i, -, rfl⟩ := List.mem_map.1 hx
      exact mkObj_libPars hU i
  · rw [s.opt] at ho; cases ho

end Verif.Convex
