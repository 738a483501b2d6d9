import Verif.Props.AnsweredCases

/-! Property C85 for objects that have been optimised before. -/

noncomputable section

namespace Verif.Convex
open Verif.Py Verif.Base Matrix

variable {n : ℕ} {U : Uni n} {S : Solver n} {D : Data n} {cfg : Cfg n} {o : OState n} {mn : Bool}

/-- **C85** (part), further targets.  Let an unoptimised object get any calls of one target method, with any targets, met
or not, accepted or not, and idle calls (as in C41), while anything happens to other objects and to the user's parameters.
A further target that passes the checks is answered with an allowed portfolio that meets it if there is one, and with
OptimizationError if there is none: earlier failures spoil nothing.  What is allowed is decided by the values the user's
parameters have now.  `EfficientFrontier.efficient_return` is treated below.  Missing: objects on which different methods
have been called. -/
theorem C85_again_partial (hU : Usable U D) (hD : Sound D mn) (hS : Decides S) {W W' : World n} {j : ℕ}
    (hW : Reachable U S D W) (hj : W.objs[j]? = some (cfg, o)) (ho : o.opt = none) {c₀ : Call n}
    (hp : (pname D.kind c₀).isSome = true) (hr : Retargets U S D j c₀ W W') {c : Call n} (hs : SameMethod c₀ c)
    (hn : c.neutral = c₀.neutral) (hmn : Asks mn c) (hc : Complete D c) (ha : Accepts D c) (hrisk : NonnegRisk c)
    (hne : ∀ f t mn, D.kind = .ef → c ≠ .efficientReturn f t mn) (hf : Finite cfg mn)
    (hcl : ClosedCons U cfg W'.heap.upar) (hobj : ContObjs U cfg W'.heap.upar) :
    ∃ o', W'.objs[j]? = some (cfg, o') ∧
    ((∃ w usr, Admissible U cfg W'.heap.upar mn w usr ∧ Meets D c w) →
      ∃ w s usr, (run U S D c o' W'.heap).1 = .ok (some w) ∧ Rounded w s ∧ Admissible U cfg W'.heap.upar mn s usr ∧
        Meets D c s) ∧
    ((¬ ∃ w usr, Admissible U cfg W'.heap.upar mn w usr ∧ Meets D c w) →
      (run U S D c o' W'.heap).1 = .error .optimization) := by
  obtain ⟨o', hj', h⟩ := C41_retarget_partial hU hW hj ho hp hr
  exact ⟨o', hj', ((h c hs hn hne).1 hc ha).1.outcome hS hU hD hmn hrisk ha hf hcl hobj⟩

/-- **C85** (part), further targets of `EfficientFrontier.efficient_return` up to the cached largest return.  Missing:
larger targets, which are refused although they may have come within reach since the largest return was computed
(`C45_stale_cache_false`). -/
theorem C85_again_return_partial (hU : Usable U D) (hk : D.kind = .ef) (hD : D.cov.PosSemidef) (hS : Decides S)
    {W W' : World n} {j : ℕ} (hW : Reachable U S D W) (hj : W.objs[j]? = some (cfg, o)) (ho : o.opt = none) {t₀ : ℝ}
    (hr : Retargets U S D j (.efficientReturn true t₀ mn) W W') (hf : Finite cfg mn)
    (hcl : ClosedCons U cfg W'.heap.upar) (hobj : ContObjs U cfg W'.heap.upar) :
    ∃ o', W'.objs[j]? = some (cfg, o') ∧ ∀ m, o'.opt ≠ none → o'.maxRet = some m → m ≠ 0 → ∀ t ≤ m,
    ((∃ w usr, Admissible U cfg W'.heap.upar mn w usr ∧ Meets D (.efficientReturn true t mn) w) →
      ∃ w s usr, (run U S D (.efficientReturn true t mn) o' W'.heap).1 = .ok (some w) ∧ Rounded w s ∧
        Admissible U cfg W'.heap.upar mn s usr ∧ Meets D (.efficientReturn true t mn) s) ∧
    ((¬ ∃ w usr, Admissible U cfg W'.heap.upar mn w usr ∧ Meets D (.efficientReturn true t mn) w) →
      (run U S D (.efficientReturn true t mn) o' W'.heap).1 = .error .optimization) := by
  obtain ⟨o', hj', h⟩ := C41_retarget_return_partial hU hW hk hj ho hr
  exact ⟨o', hj', fun m hopt hm h0 t ht => ((h m hopt hm h0 t).1 ht).outcome hS hU
    (by simp only [Sound, hk]; exact hD) rfl trivial (by simp only [Accepts, hk]) hf hcl hobj⟩

theorem half_adm_any (upar : ℕ → ℝ) : Admissible exU exCfg upar false ![1 / 2, 1 / 2] fun _ => 0 :=
  ⟨half_adm.within, nofun, half_adm.sum⟩

/-- A target that cannot be met, then one that can: the first raises OptimizationError, the second is met by the same
object. -/
example {S : Solver 2} (hS : Decides S) :
    let r := run exU S (tD .cvar 0) (.efficientRisk 0.005 false) exO (exW : World 2).heap
    r.1 = .error .optimization ∧ ∃ w, (run exU S (tD .cvar 0) (.efficientRisk 0.02 false) r.2.1 r.2.2).1 = .ok (some w) := by
  refine ⟨low_refused hS, ?_⟩
  have hr : Retargets exU S (tD .cvar 0) 0 (.efficientRisk 0.005 false) exW _ :=
    .call .refl exW_get (.efficientRisk 0.005 false) trivial rfl
  obtain ⟨o', hj', h, -⟩ := C85_again_partial (tD_usable .cvar 0) (tD_sound .cvar false) hS exW_reachable exW_get exO_opt
    rfl hr (c := .efficientRisk 0.02 false) trivial rfl rfl ⟨nofun, rfl⟩ (by show (0 : ℝ) ≤ _; norm_num)
    (by show (0 : ℝ) ≤ _; norm_num) nofun (exCfg_finite false) (no_cons rfl) (no_objs rfl)
  obtain ⟨w, -, -, e, -⟩ := h ⟨_, _, half_adm_any _, by
    show portCvar (1 / 2) tR ![1 / 2, 1 / 2] ≤ 0.02
    rw [tD_cvar (by norm_num) (by norm_num)]
    norm_num⟩
  cases hj'
  exact ⟨w, e⟩

/-- `EfficientFrontier.efficient_return` for 30 percent, the largest return, and then for 20 percent on the same object. -/
example {S : Solver 2} (hS : Decides S) :
    let r := run exU S (exD ![0.3, 0.1]) (.efficientReturn true 0.3 false) exO (exW : World 2).heap
    ∃ w, (run exU S (exD ![0.3, 0.1]) (.efficientReturn true 0.2 false) r.2.1 r.2.2).1 = .ok (some w) := by
  have h1 : Admissible exU exCfg (exW : World 2).heap.upar false ![1, 0] fun _ => 0 :=
    ex_adm.2 ⟨fun i => by fin_cases i <;> norm_num, by norm_num [Fin.sum_univ_two]⟩
  have hm : IsGreatest {r | ∃ w usr, Admissible exU exCfg (exW : World 2).heap.upar false w usr ∧
      r = w ⬝ᵥ (![0.3, 0.1] : Fin 2 → ℝ)} 0.3 := by
    refine ⟨⟨_, _, h1, by rw [ret_two]; norm_num⟩, ?_⟩
    rintro r ⟨w, usr, hw, rfl⟩
    obtain ⟨k1, k2⟩ := ex_adm.1 hw
    rw [Fin.sum_univ_two] at k2
    have := (k1 1).1
    rw [ret_two]
    show w 0 * 0.3 + w 1 * 0.1 ≤ (0.3 : ℝ)
    norm_num
    linarith
  obtain ⟨g, -⟩ := good_of_reachable (S := S) (exU_usable ![0.3, 0.1]) exW_reachable _ (List.mem_of_getElem? exW_get)
  obtain ⟨h₁, -, -, -, k⟩ := fresh_return (S := S) (exU_usable ![0.3, 0.1]) rfl rfl g exO_opt rfl nofun (t := 0.3)
    (mn := false)
  rw [max_answer hS.toExact hm] at k
  rcases k with ⟨e, k, -⟩ | ⟨m, k, -, k6⟩
  · cases k
  cases k
  obtain ⟨-, k7, k8⟩ := k6 le_rfl
  have hr : Retargets exU S (exD ![0.3, 0.1]) 0 (.efficientReturn true 0.3 false) exW _ :=
    .call .refl exW_get (.efficientReturn true 0.3 false) trivial rfl
  obtain ⟨o', hj', h⟩ := C85_again_return_partial (exU_usable ![0.3, 0.1]) rfl PosSemidef.one hS exW_reachable exW_get exO_opt
    hr (exCfg_finite false) (no_cons rfl) (no_objs rfl)
  cases hj'
  obtain ⟨w, -, -, e, -⟩ := (h 0.3 k7 k8 (by norm_num) 0.2 (by norm_num)).1 ⟨_, _, half_adm_any _, fun mu hmu => by
    cases hmu
    rw [ret_two]
    norm_num⟩
  exact ⟨w, e⟩

end Verif.Convex
