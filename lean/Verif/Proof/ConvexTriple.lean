import Verif.Proof.ConvexInv

/-! Program logic for building the first problem of an object. -/

noncomputable section

namespace Verif.Convex
open Verif.Py Verif.Base

variable {n : ℕ} {U : Uni n} {S : Solver n} {D : Data n} {cfg : Cfg n} {h₀ : Heap n}

/-- What is known of the state while a method builds its problem: the pieces added, the objective (with
or without the additional objectives), parameter values and counters. -/
structure Ix (n : ℕ) where
  ex : List (Piece n)
  ob : Option (Bool × List Par × (Env n → EReal))
  L : ℕ → ℝ
  N : ℕ
  K : ℕ

/-- The objective attribute. -/
def ObSt (U : Uni n) (cfg : Cfg n) (o : OState n) (h : Heap n) :
    Option (Bool × List Par × (Env n → EReal)) → Prop
  | none => ∀ ob, o.objective = some ob → libPars ob.body.params = []
  | some (true, ps, f) => HasObj U cfg o h ps f
  | some (false, ps, f) => ∃ k ps', k < h.nextId ∧ o.objective = some ⟨.lib k, true, ps', f⟩ ∧ libPars ps' = ps

structure Mid (U : Uni n) (cfg : Cfg n) (h₀ : Heap n) (x : Ix n) (o : OState n) (h : Heap n) : Prop where
  base : Base U cfg o h x.ex
  ob : ObSt U cfg o h x.ob
  log : h.log = h₀.log
  upar : h.upar = h₀.upar
  id : h₀.nextId ≤ h.nextId
  lpar : h.lpar = x.L
  nextVar : h.nextVar = x.N
  nextPar : h.nextPar = x.K

/-- Failure leaves the object as if it had not been called, apart from the objective. -/
structure Fails (U : Uni n) (cfg : Cfg n) (h₀ : Heap n) (o : OState n) (h : Heap n) : Prop where
  base : Base U cfg o h []
  ob : ∀ ob, o.objective = some ob → libPars ob.body.params = []
  log : h.log = h₀.log
  id : h₀.nextId ≤ h.nextId

/-- The problem is ready. -/
structure Done (U : Uni n) (cfg : Cfg n) (h₀ : Heap n) (mn : Bool) (nb : Option Bool) (ex : List (Piece n))
    (ps : List Par) (f : Env n → EReal) (L : ℕ → ℝ) (o : OState n) (h : Heap n) : Prop where
  ready : Ready U cfg mn o h ex
  ob : HasObj U cfg o h ps f
  log : h.log = h₀.log
  upar : h.upar = h₀.upar
  id : h₀.nextId ≤ h.nextId
  lpar : h.lpar = L
  neutral : ∀ b, nb = some b → o.neutral = some b

def Tri (U : Uni n) (cfg : Cfg n) (h₀ : Heap n) {α : Type} (P : OState n → Heap n → Prop) (x : M n α)
    (Q : α → OState n → Heap n → Prop) : Prop :=
  ∀ o h, P o h → (∃ a o' h', x o h = (.ok a, o', h') ∧ Q a o' h') ∨
    ∃ e o' h', x o h = (.error e, o', h') ∧ Fails U cfg h₀ o' h'

theorem Tri.bind {α β : Type} {P : OState n → Heap n → Prop} {x : M n α} {F : α → Prop}
    {Q : OState n → Heap n → Prop} {f : α → M n β} {R : β → OState n → Heap n → Prop}
    (hx : Tri U cfg h₀ P x (fun a o h => F a ∧ Q o h)) (hf : ∀ a, F a → Tri U cfg h₀ Q (f a) R) :
    Tri U cfg h₀ P (x >>= f) R := by
  intro o h hP
  rcases hx o h hP with ⟨a, o', h', h1, h2, h3⟩ | ⟨e, o', h', h1, h2⟩
  · rw [bind_ok h1]; exact hf a h2 o' h' h3
  · rw [bind_err h1]; exact .inr ⟨e, o', h', rfl, h2⟩

theorem Tri.seq {β : Type} {P : OState n → Heap n → Prop} {x : M n Unit}
    {Q : OState n → Heap n → Prop} {f : Unit → M n β} {R : β → OState n → Heap n → Prop}
    (hx : Tri U cfg h₀ P x (fun _ => Q)) (hf : Tri U cfg h₀ Q (f ()) R) :
    Tri U cfg h₀ P (x >>= f) R := by
  intro o h hP
  rcases hx o h hP with ⟨a, o', h', h1, h3⟩ | ⟨e, o', h', h1, h2⟩
  · rw [bind_ok h1]; exact hf o' h' h3
  · rw [bind_err h1]; exact .inr ⟨e, o', h', rfl, h2⟩

/-- No library parameter in the objective. -/
def obClean (ob : Option (Bool × List Par × (Env n → EReal))) : Prop := ∀ x, ob = some x → x.2.1 = []

theorem ObSt.clean {o : OState n} {h : Heap n} {ob : Option (Bool × List Par × (Env n → EReal))}
    (hs : ObSt U cfg o h ob) (hc : obClean ob) : ∀ x, o.objective = some x → libPars x.body.params = [] := by
  intro x hx
  match ob, hs with
  | none, hs => exact hs x hx
  | some (true, ps, f), ⟨y, k, h1, _, _, _, h5, _⟩ =>
    rw [hx] at h1
    cases h1
    rw [h5]; exact hc _ rfl
  | some (false, ps, f), ⟨k, ps', _, h1, h2⟩ =>
    rw [hx] at h1
    cases h1
    show libPars ps' = []
    rw [h2]; exact hc _ rfl

theorem Mid.fails {x : Ix n} {o : OState n} {h : Heap n} (m : Mid U cfg h₀ x o h) (hex : x.ex = [])
    (hc : obClean x.ob) : Fails U cfg h₀ o h :=
  ⟨hex ▸ m.base, m.ob.clean hc, m.log, m.id⟩

theorem ObSt.mono {o o' : OState n} {h h' : Heap n} {ob : Option (Bool × List Par × (Env n → EReal))}
    (hs : ObSt U cfg o h ob) (ho : o'.objective = o.objective) (hh : h.nextId ≤ h'.nextId) :
    ObSt U cfg o' h' ob := by
  match ob, hs with
  | none, hs => intro x hx; exact hs x (ho ▸ hx)
  | some (true, ps, f), ⟨y, k, h1, h2, h3, h4⟩ => exact ⟨y, k, ho.trans h1, h2, h3.trans_le hh, h4⟩
  | some (false, ps, f), ⟨k, ps', h0, h1, h2⟩ => exact ⟨k, ps', h0.trans_le hh, ho.trans h1, h2⟩

theorem tri_raise {α : Type} {x : Ix n} (e : PyErr) (hex : x.ex = []) (hc : obClean x.ob)
    {Q : α → OState n → Heap n → Prop} : Tri U cfg h₀ (Mid U cfg h₀ x) (raise e) Q :=
  fun o h m => .inr ⟨e, o, h, rfl, m.fails hex hc⟩

theorem tri_pure {α : Type} {P : OState n → Heap n → Prop} {F : α → Prop} (a : α) (ha : F a) :
    Tri U cfg h₀ P (pure a) (fun a o h => F a ∧ P o h) :=
  fun o h m => .inl ⟨a, o, h, rfl, ha, m⟩

theorem tri_variance {x : Ix n} (hex : x.ex = []) (hc : obClean x.ob) :
    Tri U cfg h₀ (Mid U cfg h₀ x) (varianceExpr D)
      (fun a o h => (a = fun s => Obj.variance s.w D.cov) ∧ Mid U cfg h₀ x o h) := by
  unfold varianceExpr
  split
  · exact tri_pure _ rfl
  · exact tri_raise _ hex hc

theorem tri_return {x : Ix n} (neg : Bool) (hex : x.ex = []) (hc : obClean x.ob) :
    Tri U cfg h₀ (Mid U cfg h₀ x) (returnExpr D neg)
      (fun a o h => (∃ mu, D.mu = some mu ∧ a = fun s => Obj.ret s.w mu neg) ∧ Mid U cfg h₀ x o h) := by
  unfold returnExpr
  split
  · exact tri_raise _ hex hc
  · rename_i mu hmu
    exact tri_pure _ ⟨mu, hmu, rfl⟩

open Matrix in
theorem tri_muTimesW {x : Ix n} (hx : (x.ex = [] ∧ obClean x.ob) ∨ D.mu.isSome) :
    Tri U cfg h₀ (Mid U cfg h₀ x) (muTimesW D)
      (fun a o h => (∃ mu, D.mu = some mu ∧ a = fun s => mu ⬝ᵥ s.w) ∧ Mid U cfg h₀ x o h) := by
  unfold muTimesW
  split
  · rename_i hmu
    rcases hx with ⟨h1, h2⟩ | hx
    · exact tri_raise _ h1 h2
    · rw [hmu] at hx; cases hx
  · rename_i mu hmu
    exact tri_pure _ ⟨mu, hmu, rfl⟩

theorem tri_tail {x : Ix n} (ht : (D.T : ℝ) * (1 - D.beta) ≠ 0) :
    Tri U cfg h₀ (Mid U cfg h₀ x) (tailCoef D)
      (fun a o h => a = 1 / (D.T * (1 - D.beta)) ∧ Mid U cfg h₀ x o h) := by
  unfold tailCoef
  rw [if_neg ht]
  exact tri_pure _ rfl

theorem tri_cvarExpr {x : Ix n} (ht : (D.T : ℝ) * (1 - D.beta) ≠ 0) :
    Tri U cfg h₀ (Mid U cfg h₀ x) (cvarExpr D) (fun a o h => a = cvarOf D ∧ Mid U cfg h₀ x o h) :=
  .bind (tri_tail ht) fun a ha => tri_pure _ (by rw [ha]; rfl)

theorem tri_cdarExpr {x : Ix n} (ht : (D.T : ℝ) * (1 - D.beta) ≠ 0) :
    Tri U cfg h₀ (Mid U cfg h₀ x) (cdarExpr D) (fun a o h => a = cdarOf D ∧ Mid U cfg h₀ x o h) :=
  .bind (tri_tail ht) fun a ha => tri_pure _ (by rw [ha]; rfl)

theorem tri_newPar {x : Ix n} (nm : String) (v : ℝ) (nn : Bool)
    (hx : (x.ex = [] ∧ obClean x.ob) ∨ nn = false ∨ 0 ≤ v) :
    Tri U cfg h₀ (Mid U cfg h₀ x) (newPar nm v nn)
      (fun p o h => p = ⟨nm, nn, .lib x.K⟩ ∧
        Mid U cfg h₀ { x with L := Function.update x.L x.K v, K := x.K + 1 } o h) := by
  intro o h m
  by_cases hv : nn = true ∧ v < 0
  · rcases hx with ⟨h1, h2⟩ | hx | hx
    · exact .inr ⟨_, o, h, newPar_err nm v nn o h hv, m.fails h1 h2⟩
    · rw [hx] at hv; exact absurd hv.1 (by decide)
    · exact absurd hv.2 (not_lt.2 hx)
  · refine .inl ⟨_, o, _, newPar_run nm v nn o h hv, by rw [m.nextPar], ?_⟩
    refine ⟨m.base.mono le_rfl, m.ob.mono rfl le_rfl, m.log, m.upar, m.id, ?_, m.nextVar, ?_⟩
    · show Function.update h.lpar h.nextPar v = _
      rw [m.lpar, m.nextPar]
    · show h.nextPar + 1 = _
      rw [m.nextPar]

theorem tri_freshVar {x : Ix n} :
    Tri U cfg h₀ (Mid U cfg h₀ x) freshVar
      (fun p o h => p = x.N ∧ Mid U cfg h₀ { x with N := x.N + 1 } o h) := by
  intro o h m
  refine .inl ⟨_, o, _, rfl, m.nextVar, ?_⟩
  refine ⟨m.base.mono le_rfl, m.ob.mono rfl le_rfl, m.log, m.upar, m.id, m.lpar, ?_, m.nextPar⟩
  show h.nextVar + 1 = _
  rw [m.nextVar]

theorem tri_setObjective {x : Ix n} (ps : List Par) (f : Env n → EReal) :
    Tri U cfg h₀ (Mid U cfg h₀ x) (setObjective ps f)
      (fun _ => Mid U cfg h₀ { x with ob := some (false, libPars ps, f) }) := by
  intro o h m
  refine .inl ⟨_, _, _, setObjective_run ps f o h, ?_⟩
  refine ⟨?_, ⟨h.nextId, ps, Nat.lt_succ_self _, rfl, rfl⟩, m.log, m.upar, m.id.trans (Nat.le_succ _),
    m.lpar, m.nextVar, m.nextPar⟩
  exact ⟨m.base.opt, m.base.lb, m.base.ub, m.base.added, m.base.cons,
    fun c hc => (m.base.ids c hc).mono (Nat.le_succ _)⟩

theorem tri_addAll (hU : Usable U D) {x : Ix n} {ps : List Par} {f : Env n → EReal}
    (hx : x.ob = some (false, ps, f)) :
    Tri U cfg h₀ (Mid U cfg h₀ x) addAll (fun _ => Mid U cfg h₀ { x with ob := some (true, ps, f) }) := by
  intro o h m
  have hob := m.ob
  rw [hx] at hob
  obtain ⟨k, ps', hk, ho, hps⟩ := hob
  have b := m.base
  have hl : ∀ x ∈ o.added, x.body.scalar = true ∧ libPars x.body.params = [] := by
    intro x hx
    rw [b.added] at hx
    obtain ⟨i, -, rfl⟩ := List.mem_map.1 hx
    exact ⟨mkObj_scalar hU i, mkObj_libPars hU i⟩
  refine .inl ⟨_, _, _, addAll_run _ o h ho, ?_⟩
  refine ⟨?_, ?_, m.log, m.upar, m.id.trans (Nat.le_add_right _ _), m.lpar, m.nextVar, m.nextPar⟩
  · exact ⟨b.opt, b.lb, b.ub, b.added, b.cons, fun c hc => (b.ids c hc).mono (Nat.le_add_right _ _)⟩
  · have hid : ∃ i, (sumObj (⟨.lib k, true, ps', f⟩ : Obj n) o.added h.nextId).id = .lib i ∧
        i < h.nextId + o.added.length := by
      rcases sumObj_id (⟨.lib k, true, ps', f⟩ : Obj n) o.added h.nextId with ⟨h1, h2⟩ | ⟨i, h1, -, h3⟩
      · rw [h2]; exact ⟨k, rfl, by omega⟩
      · exact ⟨i, h1, h3⟩
    obtain ⟨i, hi, hi'⟩ := hid
    refine ⟨_, i, rfl, hi, hi', ?_, ?_, ?_⟩
    · exact sumObj_scalar _ _ _ rfl fun x hx => (hl x hx).1
    · rw [sumObj_libPars _ _ _ fun x hx => (hl x hx).2]; exact hps
    · intro e
      rw [sumObj_val]
      show f e + (List.map _ o.added).sum = _
      rw [b.added, List.map_map]
      rfl

theorem tri_addLib {x : Ix n} (c : ConBody Par (Env n)) (d : Env n → Prop) :
    Tri U cfg h₀ (Mid U cfg h₀ x) (addLib c d)
      (fun _ => Mid U cfg h₀ { x with ex := x.ex ++ [(c, d)] }) := by
  intro o h m
  obtain ⟨o', h1, b, h2, h3, h4⟩ := m.base.addLib c d
  exact .inl ⟨_, o', _, h1, b, m.ob.mono h2 (Nat.le_succ _), m.log, m.upar, m.id.trans (Nat.le_succ _), m.lpar,
    m.nextVar, m.nextPar⟩

theorem tri_sumOne (hU : Usable U D) {x : Ix n} {ps : List Par} {f : Env n → EReal}
    (hx : x.ob = some (true, ps, f)) (hex : ∀ y ∈ x.ex, Proper y.1) :
    Tri U cfg h₀ (Mid U cfg h₀ x) (addLib (sumCon 1))
      (fun _ => Done U cfg h₀ false none x.ex ps f x.L) := by
  intro o h m
  have hob := m.ob
  rw [hx] at hob
  obtain ⟨o', h1, rd, h2, h3, h4⟩ := m.base.sumOne hU hex
  refine .inl ⟨_, o', _, h1, rd, ?_, m.log, m.upar, m.id.trans (Nat.le_succ _), m.lpar, nofun⟩
  exact ObSt.mono (ob := some (true, ps, f)) hob h2 (Nat.le_succ _)

theorem tri_weaken {α : Type} {P : OState n → Heap n → Prop} {x : M n α}
    {Q R : α → OState n → Heap n → Prop} (ht : Tri U cfg h₀ P x Q) (hQ : ∀ a o h, Q a o h → R a o h) :
    Tri U cfg h₀ P x R := by
  intro o h hP
  rcases ht o h hP with ⟨a, o', h', e, hq⟩ | hf
  · exact .inl ⟨a, o', h', e, hQ _ _ _ hq⟩
  · exact .inr hf

theorem tri_mws (hU : Usable U D) {x : Ix n} {ps : List Par} {f : Env n → EReal}
    (hx : x.ob = some (true, ps, f)) (hex : ∀ y ∈ x.ex, Proper y.1) (mn : Bool) :
    Tri U cfg h₀ (Mid U cfg h₀ x) (makeWeightSum mn)
      (fun _ => Done U cfg h₀ mn (some mn) x.ex ps f x.L) := by
  intro o h m
  have hob := m.ob
  rw [hx] at hob
  obtain ⟨o', i, hi, h1, rd, h2, h3, h4⟩ := m.base.makeWeightSum hU hex mn
  refine .inl ⟨_, o', _, h1, rd, ?_, m.log, m.upar, m.id.trans hi, m.lpar, ?_⟩
  · exact ObSt.mono (ob := some (true, ps, f)) hob h2 hi
  · rintro b ⟨⟩; exact h4

/-! ### From a built problem to the outcome of the method -/

theorem Fails.good {o : OState n} {h : Heap n} (f : Fails U cfg h₀ o h) : Good U D cfg o h :=
  .inl ⟨f.base, f.ob⟩

/-- The state at the start of a method on an object that has not been optimised. -/
def ix₀ (h : Heap n) : Ix n := ⟨[], none, h.lpar, h.nextVar, h.nextPar⟩

theorem mid₀ {o : OState n} {h : Heap n} (b : Base U cfg o h [])
    (hob : ∀ ob, o.objective = some ob → libPars ob.body.params = []) :
    Mid U cfg h (ix₀ h) o h :=
  ⟨b, hob, rfl, rfl, le_rfl, rfl, rfl, rfl⟩

/-- What a built problem must satisfy with respect to the documented one: either it has no library
parameter and is the request, or it is the family of requests of a target method. -/
def Fits (D : Data n) (c : Call n) (mn : Bool) (nb : Option Bool) (ex : List (Piece n)) (ps : List Par)
    (f : Env n → EReal) (L : ℕ → ℝ) : Prop :=
  ∃ A : (ℕ → ℝ) → Ask n,
    (∀ e : Env n, f e = ((A e.lpar).base e.asg : EReal) ∧ (pieceSat ex e ↔ (A e.lpar).extra e.asg) ∧
      (A e.lpar).mn = mn) ∧
    ((pname D.kind c = none ∧ libPars (ex.flatMap (fun x => conPars x.1)) ++ ps = [] ∧ ∃ v, ∀ l, ask D v c = some (A l)) ∨
      ∃ v nm nn a, pname D.kind c = some nm ∧ nn = nnOf D c ∧ nb = some (mnOf c) ∧
        libPars (ex.flatMap (fun x => conPars x.1)) ++ ps = [⟨nm, nn, .lib a⟩] ∧ L a = parVal D c ∧
        ∀ l, fam D v c (l a) = some (A l))

/-- The problem is ready and fits the documentation. -/
def Fit (U : Uni n) (D : Data n) (cfg : Cfg n) (h₀ : Heap n) (c : Call n) (o : OState n) (h : Heap n) : Prop :=
  ∃ mn nb ex ps f L, Fits D c mn nb ex ps f L ∧ Done U cfg h₀ mn nb ex ps f L o h

theorem build_post {c : Call n} {P : OState n → Heap n → Prop} {build : M n Unit}
    (h : Tri U cfg h₀ P build (fun _ => Fit U D cfg h₀ c))
    {o : OState n} {h₁ : Heap n} (hP : P o h₁) :
    MPost U S D cfg c o h₀ ((build >>= fun _ => solve S) o h₁) := by
  rcases h o h₁ hP with ⟨a, o', h', e, mn, nb, ex, ps, f, L, ht, d⟩ | ⟨e, o', h', he, fl⟩
  swap
  · rw [bind_err he]
    exact ⟨fl.good, fl.id, .inl ⟨e, rfl, fl.log⟩, fun _ hl => absurd fl.log hl, fun _ _ => fl.base.opt⟩
  rw [bind_ok e]
  obtain ⟨A, hA, hcase⟩ := ht
  obtain ⟨p, k, w, vals, hrun, hprob, hid, hpars, hobj, hcons, hsolved⟩ :=
    solve_ready (S := S) (D := D) d.ready d.ob A hA
  rw [hrun, d.log, d.upar]
  rcases hcase with ⟨hn, hp, v, hv⟩ | ⟨v, nm, nn, a, h1, hnn, h2, h3, h4, h5⟩
  · refine ⟨.inr ⟨p, (hsolved _ (.once k hid (hpars.trans hp)) rfl w vals []).mono le_rfl⟩, d.id,
      .inr ⟨v, _, hv h'.lpar, rfl, rfl⟩, fun hs => ?_, fun _ hl => absurd hl (by simp)⟩
    rw [hn] at hs; cases hs
  · have req : ∀ h, ∃ q, fam D v c (h.lpar a) = some q ∧ p.prob h = doc U cfg h.upar q :=
      fun h'' => ⟨A h''.lpar, h5 _, hprob h''⟩
    have sol := (hsolved _ (.target c v nm nn a k hid h1 hnn (hpars.trans h3) (d.neutral _ h2) req) rfl
      w vals [])
    refine ⟨.inr ⟨p, sol.mono le_rfl⟩, d.id, .inr ⟨v, A h'.lpar, ?_, rfl, rfl⟩, fun _ _ => ⟨p, v, nm, a,
      sol.mono le_rfl, hobj, hcons, h1, by rw [hpars, h3, hnn], d.neutral _ h2, req⟩,
      fun _ hl => absurd hl (by simp)⟩
    rw [← h5, d.lpar, h4, fam_parVal]

end Verif.Convex
