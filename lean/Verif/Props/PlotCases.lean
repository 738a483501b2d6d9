import Verif.Props.Plot
import Verif.Props.TargetCases
import Verif.Props.TailCases

/-! Cases for C51, and plots that do not show what is asked for. -/

noncomputable section

namespace Verif.Convex
open Verif.Py Verif.Base Matrix

variable {S : Solver 2}

theorem pl_max : IsGreatest {r | ∃ w usr, Admissible exU exCfg (exW : World 2).heap.upar false w usr ∧
    r = w ⬝ᵥ (![1, 0] : Fin 2 → ℝ)} 1 := by
  refine ⟨⟨![1, 0], fun _ => 0, ex_adm.2 ⟨fun i => ?_, ?_⟩, ?_⟩, ?_⟩
  · fin_cases i <;> norm_num
  · norm_num [Fin.sum_univ_two]
  · rw [ret_two]; norm_num
  · rintro r ⟨w, usr, ha, rfl⟩
    rw [ret_two]
    have := (ex_adm.1 ha).1 0
    norm_num
    exact this.2

/-- A target return between 1/2 and 1 has a best portfolio. -/
theorem pl_solvable {upar : ℕ → ℝ} {t : ℝ} (h1 : 1 / 2 ≤ t) (h2 : t ≤ 1) :
    Solvable exU exCfg upar false (fun w => t ≤ w ⬝ᵥ (![1, 0] : Fin 2 → ℝ))
      fun w => w ⬝ᵥ (exD ![1, 0] : Data 2).cov *ᵥ w := by
  have hv : ∀ w : Fin 2 → ℝ, w ⬝ᵥ (exD ![1, 0] : Data 2).cov *ᵥ w = w 0 ^ 2 + w 1 ^ 2 := variance_two
  refine ⟨![t, 1 - t], fun _ => 0, t ^ 2 + (1 - t) ^ 2, ⟨ex_adm.2 ⟨fun i => ?_, ?_⟩, ?_, fun w' u ha hr => ?_⟩, ?_⟩
  · fin_cases i
    · exact ⟨by show 0 ≤ t; linarith, h2⟩
    · exact ⟨by show 0 ≤ 1 - t; linarith, by show 1 - t ≤ 1; linarith⟩
  · rw [Fin.sum_univ_two]; show t + (1 - t) = 1; ring
  · rw [ret_two]; show t ≤ t * 1 + (1 - t) * 0; linarith
  · obtain ⟨k1, k2⟩ := ex_adm.1 ha
    rw [Fin.sum_univ_two] at k2
    rw [ret_two] at hr
    have hr : t ≤ w' 0 * 1 + w' 1 * 0 := hr
    simp only [total, exCfg, List.map_nil, List.sum_nil, add_zero, EReal.coe_le_coe_iff]
    rw [hv, hv]
    show t ^ 2 + (1 - t) ^ 2 ≤ _
    have : w' 1 = 1 - w' 0 := by linarith
    rw [this]
    nlinarith
  · simp only [total, exCfg, List.map_nil, List.sum_nil, add_zero]
    rw [hv]
    rfl

/-- Targets 0.6 and 0.7 of two uncorrelated assets with returns 1 and 0: two points are drawn. -/
example (hS : Decides S) : ∃ p p', (plotFrontier exU S (exD ![1, 0]) "return"
      (some [(true, 0.6), (true, 0.7)]) 100 exO (exW : World 2).heap).1 = .ok [p, p'] ∧
    Shows exU exCfg (exW : World 2).heap.upar 1 ![1, 0] (fun w => 0.6 ≤ w ⬝ᵥ (![1, 0] : Fin 2 → ℝ))
      (fun w => w ⬝ᵥ (1 : Matrix (Fin 2) (Fin 2) ℝ) *ᵥ w) p ∧
    Shows exU exCfg (exW : World 2).heap.upar 1 ![1, 0] (fun w => 0.7 ≤ w ⬝ᵥ (![1, 0] : Fin 2 → ℝ))
      (fun w => w ⬝ᵥ (1 : Matrix (Fin 2) (Fin 2) ℝ) *ᵥ w) p' := by
  obtain ⟨pts, h, h'⟩ := C51_return_partial (exU_usable _) rfl rfl (mu := ![1, 0]) rfl PosSemidef.one hS exW_reachable
    exW_get exO_opt nofun pl_max one_ne_zero [0.6, 0.7] (by
      intro t ht
      simp only [List.mem_cons, List.not_mem_nil, or_false] at ht
      rcases ht with rfl | rfl <;> norm_num) 100
  rw [List.filter_cons_of_pos (by simpa using pl_solvable (by norm_num) (by norm_num)),
    List.filter_cons_of_pos (by simpa using pl_solvable (by norm_num) (by norm_num)), List.filter_nil] at h'
  rcases h' with _ | ⟨k1, _ | ⟨k2, ⟨⟩⟩⟩
  exact ⟨_, _, h, k1, k2⟩

/-- The default range in the example. -/
example (hS : Decides S) (N : ℕ) : ∃ pts, (plotFrontier exU S (exD ![1, 0]) "return" none N exO
    (exW : World 2).heap).1 = .ok pts := by
  have key := C51_default_partial (exU_usable _) rfl rfl (mu := ![1, 0]) rfl PosSemidef.one hS
    exW_reachable exW_get exO_opt nofun pl_max one_ne_zero
  suffices h : _ ∧ _ by
    obtain ⟨w, s, usr, pts, -, -, h, -⟩ := key h.1 h.2 N
    exact ⟨pts, h⟩
  constructor
  · refine ⟨![1 / 2, 1 / 2], fun _ => 0, 1 / 2, ⟨ex_adm.2 ⟨fun i => ?_, ?_⟩, trivial, fun w' u ha hr => ?_⟩, ?_⟩
    · fin_cases i <;> norm_num
    · norm_num [Fin.sum_univ_two]
    · obtain ⟨k1, k2⟩ := ex_adm.1 ha
      rw [Fin.sum_univ_two] at k2
      simp only [total, exCfg, List.map_nil, List.sum_nil, add_zero, EReal.coe_le_coe_iff]
      show _ ⬝ᵥ (1 : Matrix (Fin 2) (Fin 2) ℝ) *ᵥ _ ≤ _ ⬝ᵥ (1 : Matrix (Fin 2) (Fin 2) ℝ) *ᵥ _
      rw [variance_two, variance_two]
      norm_num
      nlinarith [sq_nonneg (w' 0 - w' 1)]
    · simp only [total, exCfg, List.map_nil, List.sum_nil, add_zero, EReal.coe_eq_coe_iff]
      show _ ⬝ᵥ (1 : Matrix (Fin 2) (Fin 2) ℝ) *ᵥ _ = _
      rw [variance_two]
      norm_num
  · intro w s usr hr hb
    have h1 := ((ex_adm.1 hb.adm).1 0).2
    have h2 := (hr 0).2 (10 ^ 16)
    rw [ret_two]
    have e : (((10 ^ 16 : ℤ) : ℝ) / 10 ^ 16) = 1 := by norm_num
    rw [e, abs_of_nonneg (by linarith : 0 ≤ 1 - s 0)] at h2
    have := (abs_le.1 h2).2
    show w 0 * 1 + w 1 * 0 ≤ 1
    linarith

/-- Utility and risk in the example. -/
example (hS : Decides S) : (∃ pts, (plotFrontier exU S (exD ![1, 0]) "utility"
      (some ([1, 2].map fun t => (true, t))) 100 exO (exW : World 2).heap).1 = .ok pts) ∧
    ∃ pts, (plotFrontier exU S (exD ![1, 0]) "risk" (some ([0.8, 0.9].map fun t => (true, t))) 100 exO
      (exW : World 2).heap).1 = .ok pts := by
  classical
  constructor
  · obtain ⟨pts, h, -⟩ := C51_utility_partial (exU_usable _) rfl rfl (mu := ![1, 0]) rfl PosSemidef.one hS exW_reachable
      exW_get exO_opt [1, 2] (by
        intro t ht
        simp only [List.mem_cons, List.not_mem_nil, or_false] at ht
        rcases ht with rfl | rfl <;> norm_num) 100
    exact ⟨pts, h⟩
  · obtain ⟨pts, h, -⟩ := C51_risk_partial (exU_usable _) rfl rfl (mu := ![1, 0]) rfl PosSemidef.one hS exW_reachable
      exW_get exO_opt [0.8, 0.9] (by
        intro t ht
        have ht : 0.8 ≤ t := by
          simp only [List.mem_cons, List.not_mem_nil, or_false] at ht
          rcases ht with rfl | rfl <;> norm_num
        refine ⟨by linarith, ?_⟩
        rw [exGlobal]
        show ¬ t < _
        rw [not_lt, Real.sqrt_le_left (by linarith)]
        nlinarith) 100
    exact ⟨pts, h⟩

/-! ### What goes wrong -/

/-- `efficient_return(t)` on the example object. -/
theorem pl_first (hS : Exact S) {t : ℝ} (h1 : 1 / 2 ≤ t) (h2 : t ≤ 1) :
    ∃ w o' h', run exU S (exD ![1, 0]) (.efficientReturn true t false) exO (exW : World 2).heap = (.ok (some w), o', h') ∧
      o'.weights = some w ∧ o'.maxRet = some 1 := by
  obtain ⟨h₁, -, -, k3, k4⟩ := fresh_return (S := S) (exU_usable ![1, 0]) rfl rfl (exW_good (exU_usable _)) exO_opt
    (mu := ![1, 0]) rfl nofun (t := t) (mn := false)
  rw [max_answer hS pl_max] at k4
  rcases k4 with ⟨e, k4, -⟩ | ⟨m, k4, -, k5⟩
  · cases k4
  cases k4
  obtain ⟨⟨k6, -⟩, -, k8⟩ := k5 h2
  let q : Ask 2 := ⟨fun s => s.w ⬝ᵥ (1 : Matrix (Fin 2) (Fin 2) ℝ) *ᵥ s.w, fun s => t ≤ s.w ⬝ᵥ ![1, 0], false⟩
  obtain ⟨s₀, v₀, hs₀⟩ := (solvable_iff (U := exU) (cfg := exCfg) (q := q) (upar := h₁.upar)
    (req := fun w => t ≤ w ⬝ᵥ (![1, 0] : Fin 2 → ℝ))
    (f := fun w => w ⬝ᵥ (exD ![1, 0] : Data 2).cov *ᵥ w) (fun _ => Iff.rfl) (fun _ => rfl)).2 (pl_solvable h1 h2)
  obtain ⟨s, e, -, -⟩ := k6.exact hS nofun (q := q) rfl hs₀
  obtain ⟨-, -, -, -, -, -, -, e'⟩ := run_ends (U := exU) (S := S) (D := exD ![1, 0])
    (c := .efficientReturn true t false) nofun nofun exO (exW : World 2).heap (round16 s.w) e
  exact ⟨_, _, _, Prod.ext e rfl, e', k8⟩

theorem pl_none {upar : ℕ → ℝ} : ¬ Solvable exU exCfg upar false (fun w => 1.5 ≤ w ⬝ᵥ (![1, 0] : Fin 2 → ℝ))
      fun w => w ⬝ᵥ (exD ![1, 0] : Data 2).cov *ᵥ w := by
  rintro ⟨w, u, v, hb, -⟩
  have h := hb.meets
  have := ((ex_adm.1 hb.adm).1 0).2
  rw [ret_two] at h
  have h : 1.5 ≤ w 0 * 1 + w 1 * 0 := h
  norm_num at h
  linarith

/-- **C51 is false of the code** for values that are refused with ValueError: the previous portfolio is drawn again.
Returns (1, 0), targets 0.7 and 1.5: two points are drawn although no portfolio has the return 1.5. -/
theorem C51_stale_false (hS : Exact S) : ∃ p, (plotFrontier exU S (exD ![1, 0]) "return"
      (some [(true, 0.7), (true, 1.5)]) 100 exO (exW : World 2).heap).1 = .ok [p, p] ∧
    ¬ Solvable exU exCfg (exW : World 2).heap.upar false (fun w => 1.5 ≤ w ⬝ᵥ (![1, 0] : Fin 2 → ℝ))
      fun w => w ⬝ᵥ (exD ![1, 0] : Data 2).cov *ᵥ w := by
  obtain ⟨w, o', h', k1, k2, k3⟩ := pl_first hS (t := 0.7) (by norm_num) (by norm_num)
  refine ⟨pointOf 1 ![1, 0] w, ?_, pl_none⟩
  have hpt : ∀ h, plotPoint (exD ![1, 0]) o' h = .ok (pointOf 1 ![1, 0] w) := fun h =>
    plotPoint_ef (D := exD ![1, 0]) rfl rfl PosSemidef.one k2
  have k4 : run exU S (exD ![1, 0]) (.efficientReturn true 1.5 false) o' h' = (.error .valueError, o', h') := by
    have e := checkMax_cached (S := S) (D := exD ![1, 0]) (o := o') (h := h') k3 one_ne_zero 1.5
    rw [if_pos (by norm_num)] at e
    exact some_err (x := efficientReturn S (exD ![1, 0]) true 1.5 false) rfl (bind_err e)
  show (plotEf exU S (exD ![1, 0]) "return" [(true, 0.7), (true, 1.5)] exO (exW : World 2).heap).1 = _
  have hc := (sweep_return (D := exD (n := 2) ![1, 0])).eq
  rw [plot_draw (call := fun v => .efficientReturn v.1 v.2 false) (hc _) k1 (hpt _), bind_run,
    plot_stale (call := fun v => .efficientReturn v.1 v.2 false) (hc _) k4 (hpt _), bind_run]
  rfl

/-- **C51 is false of the code** if the first value is refused: there is no portfolio to report, and the plot raises.
Returns (1, 0), targets 1.5 and 0.7; the second has a best portfolio. -/
theorem C51_first_false (hS : Exact S) (vs : List (Bool × ℝ)) :
    (plotFrontier exU S (exD ![1, 0]) "return" (some ((true, 1.5) :: vs)) 100 exO (exW : World 2).heap).1 =
      .error .valueError := by
  obtain ⟨h₁, -, -, k3, k4⟩ := fresh_return (S := S) (exU_usable ![1, 0]) rfl rfl (exW_good (exU_usable _)) exO_opt
    (mu := ![1, 0]) rfl nofun (t := 1.5) (mn := false)
  rw [max_answer hS pl_max] at k4
  rcases k4 with ⟨e, k4, -⟩ | ⟨m, k4, k5, -⟩
  · cases k4
  cases k4
  show (plotEf exU S (exD ![1, 0]) "return" ((true, 1.5) :: vs) exO (exW : World 2).heap).1 = _
  have hr := k5 (by norm_num)
  have he : plotPoint (exD ![1, 0]) { (exO : OState 2) with maxRet := some 1 } h₁ = .error .valueError := rfl
  exact congrArg Prod.fst (plot_fail (call := fun v => .efficientReturn v.1 v.2 false)
    ((sweep_return (D := exD (n := 2) ![1, 0])).eq _) hr he)

/-- No point can be drawn for the classes whose performance is a pair, which the plot tries to unpack into three. -/
theorem plotPoint_tail {n : ℕ} {D : Data n} (hk : D.kind = .cvar ∨ D.kind = .cdar) (o : OState n) (h : Heap n) :
    ∃ e, plotPoint D o h = .error e := by
  unfold plotPoint
  rcases hk with hk | hk
  · rw [hk]
    dsimp only
    cases cvarPerformance D o h <;> exact ⟨_, rfl⟩
  · rw [hk]
    dsimp only
    cases cdarPerformance D o h <;> exact ⟨_, rfl⟩

/-- **C51 is false of the code** for `EfficientCVaR` and `EfficientCDaR` objects: a plot that does not raise has no
points, whatever the parameter and the range. -/
theorem C51_tail_false {n : ℕ} {U : Uni n} {S : Solver n} {D : Data n} (hk : D.kind = .cvar ∨ D.kind = .cdar)
    (param : String) (vs : List (Bool × ℝ)) (N : ℕ) (o : OState n) (h : Heap n) {pts : List (Option ℝ × Flt ℝ)}
    (hp : (plotFrontier U S D param (some vs) N o h).1 = .ok pts) : pts = [] := by
  induction vs generalizing o h pts with
  | nil => cases hp; rfl
  | cons v vs ih =>
    have hp : (plotEf U S D param (v :: vs) o h).1 = .ok pts := hp
    have pt := plotPoint_tail (D := D) hk
    cases hc : plotCall (n := n) param v with
    | none => simp only [plotEf, hc] at hp; cases hp
    | some c =>
      rcases hr : run U S D c o h with ⟨r, o', h'⟩
      obtain ⟨e, he⟩ := pt o' h'
      cases r with
      | ok w => simp only [plotEf, hc, hr, he] at hp; cases hp
      | error e' =>
        by_cases k1 : e' = .optimization
        · subst k1
          simp only [plotEf, hc, hr] at hp
          exact ih o' h' hp
        · by_cases k2 : e' = .valueError
          · subst k2
            simp only [plotEf, hc, hr, he] at hp; cases hp
          · rw [plot_raise (call := fun _ => c) hc hr k1 k2] at hp; cases hp

/-- The example of C46: the target is reached, but the plot raises ValueError. -/
theorem C51_cvar_false (hS : Exact S) (vs : List (Bool × ℝ)) :
    (∃ w, (run exU S (tD .cvar 0) (.efficientReturn true 0.075 false) exO (exW : World 2).heap).1 = .ok (some w)) ∧
    (plotFrontier exU S (tD .cvar 0) "return" (some ((true, 0.075) :: vs)) 100 exO (exW : World 2).heap).1 =
      .error .valueError := by
  obtain ⟨w, hw⟩ := tD_return_cvar_runs hS exW_reachable exW_get exO_opt
  refine ⟨⟨w, hw⟩, ?_⟩
  obtain ⟨mu, s, usr, -, -, -, h4⟩ := C46_efficient_return_partial (tD_usable _ _) rfl (by norm_num [tD])
    (by norm_num [tD]) exW_reachable exW_get hw (hS.correct _ _)
  rcases hr : run exU S (tD .cvar 0) (.efficientReturn true 0.075 false) exO (exW : World 2).heap with ⟨r, o', h'⟩
  rw [hr] at hw h4
  cases hw
  dsimp only at h4
  have he : plotPoint (tD .cvar 0) o' h' = .error .valueError := by
    show cvarPerformance _ o' h' >>= _ = _
    rw [h4]
    rfl
  show (plotEf exU S (tD .cvar 0) "return" ((true, 0.075) :: vs) exO (exW : World 2).heap).1 = _
  have hc : plotCall (n := 2) "return" (true, 0.075) = some (.efficientReturn true 0.075 false) :=
    (sweep_return (D := tD .cvar 0)).eq _
  simp only [plotEf, hc, hr, he]

/-! ### The default range -/

/-- Three uncorrelated assets with variances 1, 4 and 4 and the same return 1. -/
def rD : Data 3 := { (exD (fun _ => 1) : Data 3) with cov := Matrix.diagonal ![1, 4, 4] }

theorem rD_usable : Usable exU rD where
  names _ := by simp [exU]
  scalar _ := rfl
  cons _ := ⟨nofun, nofun⟩
  mu := nofun
  tail := by rintro (h | h) <;> cases h

theorem third {a b c : ℝ} : (![a, b, c] : Fin 3 → ℝ) 2 = c := rfl

theorem rD_var (w : Fin 3 → ℝ) : w ⬝ᵥ rD.cov *ᵥ w = w 0 ^ 2 + 4 * w 1 ^ 2 + 4 * w 2 ^ 2 := by
  show w ⬝ᵥ Matrix.diagonal ![1, 4, 4] *ᵥ w = _
  rw [dotProduct, Fin.sum_univ_three]
  simp only [mulVec_diagonal, third]
  norm_num
  ring

theorem rD_psd : rD.cov.PosSemidef :=
  PosSemidef.diagonal (by intro i; fin_cases i <;> norm_num)

theorem rD_max : IsGreatest {r | ∃ w usr, Admissible exU exCfg (exW : World 3).heap.upar false w usr ∧
    r = w ⬝ᵥ (fun _ => 1 : Fin 3 → ℝ)} 1 := by
  refine ⟨⟨![1, 0, 0], fun _ => 0, ex_adm.2 ⟨fun i => ?_, ?_⟩, ?_⟩, ?_⟩
  · fin_cases i <;> norm_num
  · norm_num [Fin.sum_univ_three, third]
  · norm_num [dotProduct, Fin.sum_univ_three, third]
  · rintro r ⟨w, usr, ha, rfl⟩
    have := (ex_adm.1 ha).2
    simp only [dotProduct, mul_one]
    exact this.le

theorem round_two_thirds : npRound 16 (2 / 3 : ℝ) = 6666666666666667 / 10 ^ 16 := by
  have hf : ⌊(2 / 3 * 10 ^ 16 : ℝ)⌋ = 6666666666666666 := by
    rw [Int.floor_eq_iff]; norm_num
  have : Discrete.rint (2 / 3 * 10 ^ 16 : ℝ) = 6666666666666667 := by
    rcases Discrete.rint_cases (2 / 3 * 10 ^ 16 : ℝ) with h | h
    · rw [hf] at h
      norm_num at h
    · rw [h.1, hf]
      norm_num
  unfold npRound
  rw [this]
  norm_num

theorem round_sixth : npRound 16 (1 / 6 : ℝ) = 1666666666666667 / 10 ^ 16 := by
  have hf : ⌊(1 / 6 * 10 ^ 16 : ℝ)⌋ = 1666666666666666 := by
    rw [Int.floor_eq_iff]; norm_num
  have : Discrete.rint (1 / 6 * 10 ^ 16 : ℝ) = 1666666666666667 := by
    rcases Discrete.rint_cases (1 / 6 * 10 ^ 16 : ℝ) with h | h
    · rw [hf] at h
      norm_num at h
    · rw [h.1, hf]
      norm_num
  unfold npRound
  rw [this]
  norm_num

theorem rD_minvol {S : Solver 3} (hS : Exact S) : ∃ o' h',
    run exU S rD .minVolatility exO (exW : World 3).heap =
      (.ok (some ![6666666666666667 / 10 ^ 16, 1666666666666667 / 10 ^ 16, 1666666666666667 / 10 ^ 16]), o', h') ∧
    o'.weights = some ![6666666666666667 / 10 ^ 16, 1666666666666667 / 10 ^ 16, 1666666666666667 / 10 ^ 16] ∧
    h'.upar = (exW : World 3).heap.upar ∧ (exW : World 3).heap.nextId ≤ h'.nextId := by
  have p : Passes exU S rD exCfg .minVolatility exW.heap
      (run exU S rD .minVolatility exO (exW : World 3).heap) :=
    (fresh_reaches rD_usable (exW_good rD_usable) exO_opt (c := .minVolatility) ⟨rfl, rfl⟩ trivial nofun).1
  obtain ⟨s', e, hs, -⟩ := p.exact hS (q := ⟨fun s => s.w ⬝ᵥ rD.cov *ᵥ s.w, fun _ => True,
    false⟩) nofun rfl (s := ofW ![2 / 3, 1 / 6, 1 / 6]) (v := 2 / 3) (by
      rw [ex_isOpt rfl]
      refine ⟨⟨fun i => ?_, ?_, trivial⟩, ?_, fun s _ k2 _ => ?_⟩
      · fin_cases i <;> norm_num [ofW]
      · norm_num [ofW, Fin.sum_univ_three, third]
      · show (ofW ![2 / 3, 1 / 6, 1 / 6]).w ⬝ᵥ _ *ᵥ _ = _
        rw [rD_var]; norm_num [ofW, third]
      · show _ ≤ s.w ⬝ᵥ rD.cov *ᵥ s.w
        rw [rD_var]
        rw [Fin.sum_univ_three] at k2
        have : s.w 0 = 1 - s.w 1 - s.w 2 := by linarith
        rw [this]
        nlinarith [sq_nonneg (s.w 1 - s.w 2), sq_nonneg (s.w 1 + s.w 2 - 1 / 3)])
  obtain ⟨⟨-, h2, -⟩, h3, -⟩ := (ex_isOpt rfl).1 hs
  have h3 : s'.w ⬝ᵥ rD.cov *ᵥ s'.w = 2 / 3 := h3
  rw [rD_var] at h3
  rw [Fin.sum_univ_three] at h2
  have h0 : s'.w 0 = 1 - s'.w 1 - s'.w 2 := by linarith
  have hz : 2 * (s'.w 1 - s'.w 2) ^ 2 + 3 * (s'.w 1 + s'.w 2 - 1 / 3) ^ 2 = 0 := by
    rw [h0] at h3
    nlinarith
  have z1 : s'.w 1 - s'.w 2 = 0 := by
    have : (s'.w 1 - s'.w 2) ^ 2 = 0 := by
      nlinarith [sq_nonneg (s'.w 1 - s'.w 2), sq_nonneg (s'.w 1 + s'.w 2 - 1 / 3)]
    exact pow_eq_zero_iff two_ne_zero |>.1 this
  have z2 : s'.w 1 + s'.w 2 - 1 / 3 = 0 := by
    have : (s'.w 1 + s'.w 2 - 1 / 3) ^ 2 = 0 := by
      nlinarith [sq_nonneg (s'.w 1 - s'.w 2), sq_nonneg (s'.w 1 + s'.w 2 - 1 / 3)]
    exact pow_eq_zero_iff two_ne_zero |>.1 this
  have hr : round16 s'.w = ![6666666666666667 / 10 ^ 16, 1666666666666667 / 10 ^ 16, 1666666666666667 / 10 ^ 16] := by
    have e0 : s'.w 0 = 2 / 3 := by linarith
    have e1 : s'.w 1 = 1 / 6 := by linarith
    have e2 : s'.w 2 = 1 / 6 := by linarith
    funext i
    fin_cases i
    · show npRound 16 (s'.w 0) = _
      rw [e0, round_two_thirds]; rfl
    · show npRound 16 (s'.w 1) = _
      rw [e1, round_sixth]; rfl
    · show npRound 16 (s'.w 2) = _
      rw [e2, round_sixth]; rfl
  rw [hr] at e
  obtain ⟨-, -, -, -, -, -, -, e'⟩ := run_ends (U := exU) (S := S) (D := rD) (c := .minVolatility) nofun nofun exO
      (exW : World 3).heap _ e
  exact ⟨_, _, Prod.ext e rfl, e', minVol_upar rfl _ _,
    (run_post rD_usable (exW_good rD_usable) (by intro m hm; cases hm) (.minVolatility : Call 3)).mono⟩

/-- **C51 is false of the code** for the default range: the returns of the least-variance portfolio are computed from
rounded weights and can lie above the largest return.  Then the first target is refused and the plot raises.  Three
uncorrelated assets with variances 1, 4 and 4 and the same return 1; weights 2/3, 1/6 and 1/6 are all rounded up.  (In
exact arithmetic; floating-point sums may hide or add to the excess.) -/
theorem C51_default_false {S : Solver 3} (hS : Exact S) (N : ℕ) :
    (plotFrontier exU S rD "return" none (N + 1) exO (exW : World 3).heap).1 = .error .valueError := by
  obtain ⟨o₁, h₁, e1, e2, e3, e4⟩ := rD_minvol hS
  have g : Good exU rD exCfg (exO : OState 3) h₁ := (exW_good rD_usable).mono e4
  have b : Base exU exCfg (exO : OState 3) h₁ [] := by
    rcases g with ⟨b, -⟩ | ⟨p, s⟩
    · exact b
    · have := s.opt; rw [exO_opt] at this; cases this
  obtain ⟨o₂, h₂, hx, -, e5, e6⟩ := maxReturn_clean (S := S) rD_usable b (mu := fun _ => 1) rfl
  rw [e3, max_answer hS rD_max] at hx
  let w : Fin 3 → ℝ := ![6666666666666667 / 10 ^ 16, 1666666666666667 / 10 ^ 16, 1666666666666667 / 10 ^ 16]
  have hsum : w ⬝ᵥ (fun _ => 1) = 10000000000000001 / 10 ^ 16 := by
    rw [dotProduct, Fin.sum_univ_three]
    norm_num [w, third]
  have hd : defaultRange exU S rD (N + 1) exO (exW : World 3).heap =
      (.ok (linspace (w ⬝ᵥ fun _ => 1) (1 - 0.0001) (N + 1)), exO, h₂) := by
    have hp : plotPoint rD o₁ h₁ = .ok (pointOf rD.cov (fun _ => 1) w) := plotPoint_ef rfl rfl rD_psd e2
    simp only [defaultRange, deepcopy, e1, hp, pointOf, hx]
  have hl : ∃ l, linspace (w ⬝ᵥ fun _ => 1) (1 - 0.0001) (N + 1) = (w ⬝ᵥ fun _ => 1) :: l := by
    unfold linspace
    split
    · exact ⟨_, rfl⟩
    · rw [List.range_succ_eq_map, List.map_cons, Nat.cast_zero, zero_mul, add_zero]
      exact ⟨_, rfl⟩
  obtain ⟨l, hl⟩ := hl
  have hpl : plotFrontier exU S rD "return" none (N + 1) exO (exW : World 3).heap =
      plotEf exU S rD "return" ((w ⬝ᵥ fun _ => 1, l).2.map (fun t => (true, t)) |>.cons (true, w ⬝ᵥ fun _ => 1)) exO h₂ :=
    (bind_ok hd).trans (by rw [hl]; rfl)
  obtain ⟨h₃, -, -, k3, k4⟩ := fresh_return (S := S) rD_usable rfl rfl (g.mono e5) exO_opt (mu := fun _ => 1) rfl nofun
    (t := w ⬝ᵥ fun _ => 1) (mn := false)
  rw [e6, e3, max_answer hS rD_max] at k4
  rcases k4 with ⟨e, k4, -⟩ | ⟨m, k4, k5, -⟩
  · cases k4
  cases k4
  have hr := k5 (by rw [hsum]; norm_num)
  have he : plotPoint rD { (exO : OState 3) with maxRet := some 1 } h₃ = .error .valueError := rfl
  rw [hpl]
  exact congrArg Prod.fst (plot_fail (call := fun v => .efficientReturn v.1 v.2 false)
    ((sweep_return (D := rD)).eq _) hr he)

/-- **C51** for the default range: whether the range is found or not, the object that is to be plotted is left as it is;
only copies are optimised. -/
theorem C51_default_apart {n : ℕ} {U : Uni n} {S : Solver n} {D : Data n} {N : ℕ} (o : OState n) (h : Heap n) :
    (defaultRange U S D N o h).2.1 = o := by
  unfold defaultRange
  rcases run U S D .minVolatility (deepcopy o) h with ⟨_ | _, o₁, h₁⟩
  · rfl
  dsimp only
  rcases plotPoint D o₁ h₁ with _ | ⟨a, v⟩
  · rfl
  dsimp only
  rcases maxReturn S D (deepcopy o) h₁ with ⟨_ | b, o₂, h₂⟩
  · rfl
  rcases a <;> rfl

/-- **C51 is false of the code** for `ef_param="risk"` without a range: the default range holds returns, which are then
used as target volatilities.  Two uncorrelated assets of variance 1 with returns 1 and 0: the range starts at the return
1/2, no portfolio has so low a volatility, and the plot raises; volatilities from 0.71 to 1 could all have been drawn. -/
theorem C51_range_false {S : Solver 2} (hS : Exact S) (N : ℕ) :
    (plotFrontier exU S (exD ![1, 0]) "risk" none (N + 1) exO (exW : World 2).heap).1 = .error .valueError ∧
    ∃ p, (plotFrontier exU S (exD ![1, 0]) "risk" (some [(true, 1)]) (N + 1) exO (exW : World 2).heap).1 = .ok [p] := by
  have U := exU_usable (n := 2) ![1, 0]
  have hc := (sweep_risk (D := exD (n := 2) ![1, 0]) rfl).eq
  constructor
  · have ew := ex_minvol hS ![1, 0]
    obtain ⟨-, -, -, -, -, -, -, e2⟩ := run_ends (U := exU) (S := S) (D := exD ![1, 0]) (c := .minVolatility) nofun nofun
      exO (exW : World 2).heap _ ew
    have e3 := minVol_upar (U := exU) (S := S) (D := exD (n := 2) ![1, 0]) rfl exO (exW : World 2).heap
    have e4 := (run_post U (exW_good U) (by intro m hm; cases hm) (.minVolatility : Call 2)).mono (S := S)
    rcases hrun : run exU S (exD ![1, 0]) .minVolatility exO (exW : World 2).heap with ⟨r, o₁, h₁⟩
    rw [hrun] at ew e2 e3 e4
    dsimp only at ew e2 e3 e4
    subst ew
    have g : Good exU (exD ![1, 0]) exCfg (exO : OState 2) h₁ := (exW_good U).mono e4
    have b : Base exU exCfg (exO : OState 2) h₁ [] := by
      rcases g with ⟨b, -⟩ | ⟨p, s⟩
      · exact b
      · have := s.opt; rw [exO_opt] at this; cases this
    obtain ⟨o₂, h₂, hx, -, -, -⟩ := maxReturn_clean (S := S) U b (mu := ![1, 0]) rfl
    rw [e3, max_answer hS pl_max] at hx
    have hp : plotPoint (exD ![1, 0]) o₁ h₁ = .ok (pointOf (exD ![1, 0] : Data 2).cov ![1, 0] ![1 / 2, 1 / 2]) :=
      plotPoint_ef rfl rfl PosSemidef.one e2
    have hret : (![1 / 2, 1 / 2] : Fin 2 → ℝ) ⬝ᵥ ![1, 0] = 0.5 := by
      rw [ret_two]; norm_num
    have hd : defaultRange exU S (exD ![1, 0]) (N + 1) exO (exW : World 2).heap =
        (.ok (linspace 0.5 (1 - 0.0001) (N + 1)), exO, h₂) := by
      simp only [defaultRange, deepcopy, hrun, hp, pointOf, hx, hret]
    have hl : ∃ l, linspace 0.5 (1 - 0.0001) (N + 1) = 0.5 :: l := by
      unfold linspace
      split
      · exact ⟨_, rfl⟩
      · rw [List.range_succ_eq_map, List.map_cons, Nat.cast_zero, zero_mul, add_zero]
        exact ⟨_, rfl⟩
    obtain ⟨l, hl⟩ := hl
    have hpl : plotFrontier exU S (exD ![1, 0]) "risk" none (N + 1) exO (exW : World 2).heap =
        plotEf exU S (exD ![1, 0]) "risk" ((true, 0.5) :: l.map fun t => (true, t)) exO h₂ :=
      (bind_ok hd).trans (by rw [hl]; rfl)
    have hr : run exU S (exD ![1, 0]) (.efficientRisk 0.5 false) exO h₂ = (.error .valueError, exO, h₂) := by
      refine some_err (x := efficientRisk S (exD ![1, 0]) 0.5 false) rfl ?_
      unfold efficientRisk
      rw [if_neg (by norm_num), if_pos (by
        rw [exGlobal]
        show (0.5 : ℝ) < _
        exact Real.lt_sqrt_of_sq_lt (by norm_num))]
      rfl
    have he : plotPoint (exD ![1, 0]) (exO : OState 2) h₂ = .error .valueError := rfl
    rw [hpl]
    exact congrArg Prod.fst (plot_fail (call := fun v => .efficientRisk v.2 false) (hc _) hr he)
  · obtain ⟨w, ew⟩ := ex_risk hS
    obtain ⟨-, -, -, -, -, -, -, e2⟩ := run_ends (U := exU) (S := S) (D := exD ![1, 0]) (c := .efficientRisk 1 false) nofun nofun
      exO (exW : World 2).heap _ ew
    rcases hrun : run exU S (exD ![1, 0]) (.efficientRisk 1 false) exO (exW : World 2).heap with ⟨r, o₁, h₁⟩
    rw [hrun] at ew e2
    dsimp only at ew e2
    subst ew
    refine ⟨pointOf 1 ![1, 0] w, ?_⟩
    have hp : plotPoint (exD ![1, 0]) o₁ h₁ = .ok (pointOf 1 ![1, 0] w) :=
      plotPoint_ef (D := exD ![1, 0]) rfl rfl PosSemidef.one e2
    show (plotEf exU S (exD ![1, 0]) "risk" [(true, 1)] exO (exW : World 2).heap).1 = _
    rw [plot_draw (call := fun v => .efficientRisk v.2 false) (hc _) hrun hp, bind_run]
    rfl

end Verif.Convex
