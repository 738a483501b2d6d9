import Verif.Proof.OneMethod
import Verif.Props.SolutionCases

/-!
C78: an object that has returned weights sticks to the method that computed them; trying another method is refused, and
disables the object.
-/

noncomputable section

namespace Verif.Convex
open Verif.Py Verif.Base Matrix

variable {n : ℕ} {U : Uni n} {S : Solver n} {D : Data n}

/-- **C78, one method.** All calls of one object that returned weights are calls of one method: the same target method
with the same neutrality, or `convex_objective`; any other method returns weights at most once, and then nothing else
does.  Copies are counted with the calls of their originals. -/
theorem C78_one_method (hU : Usable U D) {W : World n} {T : List (List (Event n))} (hT : Traced U S D W T) {j : ℕ}
    {es : List (Event n)} (he : T[j]? = some es) : es.Pairwise fun e e' => Found e → Found e' → Alike e.1 e'.1 := by
  have hlt : j < W.objs.length := by rw [← hT.length]; exact (List.getElem?_eq_some_iff.1 he).1
  obtain ⟨⟨cfg, o⟩, hj⟩ : ∃ x, W.objs[j]? = some x := ⟨_, List.getElem?_eq_getElem hlt⟩
  refine (Traced.invariant (P := fun o _ es => (∀ e ∈ es, Found e → ∃ p, o.opt = some p ∧ From D p o.neutral e.1) ∧
    es.Pairwise fun e e' => Found e → Found e' → Alike e.1 e'.1) hU ?_ ?_ ?_ hT hj he).2
  · exact fun _ _ => ⟨by simp, .nil⟩
  · exact fun h _ => h
  · rintro cfg o h es c g hm ⟨h1, h2⟩
    have old : ∀ e ∈ es, Found e → ∃ p, (run U S D c o h).2.1.opt = some p ∧
        From D p (run U S D c o h).2.1.neutral e.1 ∧ o.opt ≠ none := by
      intro e he hf
      obtain ⟨p, k1, k2⟩ := h1 e he hf
      have ho : o.opt ≠ none := by rw [k1]; nofun
      obtain ⟨e1, e2⟩ := neu_run (U := U) (S := S) (D := D) c o h ho
      exact ⟨p, e1.trans k1, by rw [e2]; exact k2, ho⟩
    refine ⟨fun e he hf => ?_, List.pairwise_append.2 ⟨h2, List.pairwise_singleton _ _, fun e he e' he' hf hf' => ?_⟩⟩
    · rcases List.mem_append.1 he with he | he
      · obtain ⟨p, k1, k2, -⟩ := old e he hf
        exact ⟨p, k1, k2⟩
      · rw [List.mem_singleton] at he
        subst he
        obtain ⟨hc, w, hw⟩ := hf
        obtain ⟨p, a, -⟩ := found_after hU g hm hc hw
        exact ⟨p, a.opt, a.fits⟩
    · rw [List.mem_singleton] at he'
      subst he'
      obtain ⟨p, k1, k2, ho⟩ := old e he hf
      obtain ⟨hc, w, hw⟩ := hf'
      obtain ⟨p', a, hx⟩ := found_after hU g hm hc hw
      obtain rfl : p' = p := by have := a.opt; rw [k1] at this; exact (Option.some.inj this).symm
      exact k2.alike a.fits hf.1 (hx ho)

/-- **C78, refusal.** Once an object (or the object it was copied from) has returned weights, a call of any other
optimisation method, or of the same one with the other neutrality, raises. -/
theorem C78_refused (hU : Usable U D) {W : World n} {T : List (List (Event n))} (hT : Traced U S D W T) {j : ℕ}
    {cfg : Cfg n} {o : OState n} {es : List (Event n)} (hj : W.objs[j]? = some (cfg, o)) (he : T[j]? = some es)
    {e : Event n} (hm : e ∈ es) (hf : Found e) {c : Call n} (hc : Optimises c) (hn : ¬ Alike e.1 c) :
    ∃ er, (run U S D c o W.heap).1 = .error er := by
  have hlt := (List.getElem?_eq_some_iff.1 he).1
  have hp := C78_one_method hU (hT.call hj he c) (List.getElem?_set_self hlt)
  rcases hr : (run U S D c o W.heap).1 with er | w
  · exact ⟨er, rfl⟩
  · cases w with
    | none => exact absurd hr (optimises_some hc)
    | some w => exact absurd ((List.pairwise_append.1 hp).2.2 e hm _ (List.mem_singleton_self _) hf ⟨.inl hc, w, hr⟩) hn

theorem Elsewhere.reachable {j : ℕ} {W W' : World n} (hW : Reachable U S D W) (ho : Elsewhere U S D j W W') :
    Reachable U S D W' := by
  induction ho with
  | refl => exact hW
  | step _ hs _ ih => exact .step ih hs

theorem Elsewhere.same {j : ℕ} {W W' : World n} (ho : Elsewhere U S D j W W') : W'.objs[j]? = W.objs[j]? := by
  induction ho with
  | refl => rfl
  | step _ _ hj ih => exact hj.trans ih

theorem Later.spoiled (hU : Usable U D) {j : ℕ} {W W' : World n} (hW : Reachable U S D W) (hl : Later U S D j W W')
    {p : Opt n} {x : Cfg n × OState n} (hj : W.objs[j]? = some x) (hs : Spoiled p x.2 W.heap) :
    Reachable U S D W' ∧ ∃ y, W'.objs[j]? = some y ∧ Spoiled p y.2 W'.heap := by
  induction hl with
  | refl => exact ⟨hW, x, hj, hs⟩
  | call _ hj' c hc ih =>
    obtain ⟨r, y, hy, hs'⟩ := ih
    rw [hj'] at hy
    cases hy
    exact ⟨.step r (.call hj' c), _, List.getElem?_set_self (List.getElem?_eq_some_iff.1 hj').1, rots_run hc _ _ hs'⟩
  | other _ hst hj' ih =>
    obtain ⟨r, y, hy, hs'⟩ := ih
    exact ⟨.step r hst, y, hj'.trans hy, ⟨hs'.1.1, hs'.1.2.mono (step_mono hU r hst)⟩, hs'.2⟩

/-- **C78 fails: a refused call is not harmless.** An object returns weights from method `c₀`; then another method, with an
argument that the class accepts, is tried on it.  From then on every optimisation method raises on this object, also `c₀`
with the arguments that worked before, until `convex_objective` is called. -/
theorem C78_harmless_false (hU : Usable U D) {W : World n} (hW : Reachable U S D W) {j : ℕ} {cfg : Cfg n} {o : OState n}
    (hj : W.objs[j]? = some (cfg, o)) {c₀ : Call n} (hc : Optimises c₀ ∨ ∃ r b, c₀ = .convex r b) {w : Fin n → ℝ}
    (hw : (run U S D c₀ o W.heap).1 = .ok (some w)) {W₁ : World n}
    (h1 : W₁ = { objs := W.objs.set j (cfg.after (isOk (run U S D c₀ o W.heap).1) c₀, (run U S D c₀ o W.heap).2.1)
                 heap := (run U S D c₀ o W.heap).2.2 })
    {W₂ : World n} (h2 : Elsewhere U S D j W₁ W₂) {cfg₂ : Cfg n} {o₂ : OState n} (hj₂ : W₂.objs[j]? = some (cfg₂, o₂))
    {c : Call n} (hs : Switches D c₀ c) {W₃ : World n}
    (h3 : W₃ = { objs := W₂.objs.set j (cfg₂.after (isOk (run U S D c o₂ W₂.heap).1) c, (run U S D c o₂ W₂.heap).2.1)
                 heap := (run U S D c o₂ W₂.heap).2.2 })
    {W₄ : World n} (h4 : Later U S D j W₃ W₄) {cfg₄ : Cfg n} {o₄ : OState n} (hj₄ : W₄.objs[j]? = some (cfg₄, o₄))
    {c' : Call n} (hc' : Optimises c') : ∃ er, (run U S D c' o₄ W₄.heap).1 = .error er := by
  obtain ⟨g, hm⟩ := good_of_reachable hU hW _ (List.mem_of_getElem? hj)
  obtain ⟨p, a, -⟩ := found_after hU g hm hc hw
  have r1 : Reachable U S D W₁ := by rw [h1]; exact .step hW (.call hj c₀)
  have r2 := h2.reachable r1
  have e2 : o₂ = (run U S D c₀ o W.heap).2.1 := by
    have := h2.same
    rw [hj₂, h1] at this
    dsimp only at this
    rw [List.getElem?_set_self (List.getElem?_eq_some_iff.1 hj).1] at this
    exact (Prod.mk.inj (Option.some.inj this)).2
  rw [← e2] at a
  obtain ⟨g₂, -⟩ := good_of_reachable hU r2 _ (List.mem_of_getElem? hj₂)
  have sp := spoils_run (S := S) hU a g₂ hs
  have r3 : Reachable U S D W₃ := by rw [h3]; exact .step r2 (.call hj₂ c)
  have hj₃ : W₃.objs[j]? = some (cfg₂.after (isOk (run U S D c o₂ W₂.heap).1) c, (run U S D c o₂ W₂.heap).2.1) := by
    rw [h3]; exact List.getElem?_set_self (List.getElem?_eq_some_iff.1 hj₂).1
  obtain ⟨-, y, hy, sp'⟩ := h4.spoiled hU r3 hj₃ (by rw [h3]; exact sp)
  rw [hj₄] at hy
  cases hy
  exact (fails_run hc' _ _ sp').2

/-! ### Cases -/

/-- `efficient_risk(1)` works, `min_volatility` is tried, and `efficient_risk(1)` no longer works, though nothing about
the object was changed in between; without `min_volatility` it may be called again and again. -/
example {S : Solver 2} (hS : Exact S) :
    let D : Data 2 := exD ![1, 0]
    let r₁ := run exU S D (.efficientRisk 1 false) exO (exW : World 2).heap
    let r₂ := run exU S D .minVolatility r₁.2.1 r₁.2.2
    (∃ w, r₁.1 = .ok (some w)) ∧ (∃ e, r₂.1 = .error e) ∧
      ∃ e, (run exU S D (.efficientRisk 1 false) r₂.2.1 r₂.2.2).1 = .error e := by
  intro D r₁ r₂
  obtain ⟨w, hw⟩ := ex_risk hS
  have hT := (Traced.new (U := exU) (S := S) (D := D) (fun _ => 0) (fun _ => 1) (fun _ => 0)).call
    (j := 0) exW_get rfl (.efficientRisk 1 false)
  refine ⟨⟨w, hw⟩, ?_, ?_⟩
  · exact C78_refused (exU_usable _) hT (j := 0) rfl rfl (List.mem_singleton_self _) ⟨.inl trivial, w, hw⟩
      (c := .minVolatility) trivial (by rintro (⟨h, -⟩ | ⟨-, r, b, h⟩) <;> cases h)
  · exact C78_harmless_false (W₄ := _) (o₄ := r₂.2.1) (cfg₄ := exCfg) (exU_usable _) exW_reachable exW_get (j := 0)
      (c₀ := .efficientRisk 1 false) (c' := .efficientRisk 1 false) (.inl trivial) hw rfl .refl rfl (c := .minVolatility) ⟨trivial, ⟨⟨rfl, rfl⟩, trivial⟩, by rintro ⟨⟩, nofun⟩ rfl .refl rfl
      trivial

end Verif.Convex
