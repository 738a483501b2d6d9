import Verif.Props.Targets
import Verif.Props.SolutionCases

/-! Cases for C44 and C45, and cases in which the checks refuse achievable targets. -/

noncomputable section

namespace Verif.Convex
open Verif.Py Verif.Base Matrix

variable {S : Solver 2}

/-! ### C44 -/

theorem isPinv_one : IsPinv (1 : Matrix (Fin 2) (Fin 2) ℝ) 1 := by
  constructor <;> simp

theorem vol_two (w : Fin 2 → ℝ) : vol (1 : Matrix (Fin 2) (Fin 2) ℝ) w = Real.sqrt (w 0 ^ 2 + w 1 ^ 2) := by
  rw [vol, variance_two]

/-- Two uncorrelated assets of variance 1: target 0.8 is accepted, target 0.5 refused. -/
example : Passes exU S (exD ![1, 0]) exCfg (.efficientRisk 0.8 false) (exW : World 2).heap
      (run exU S (exD ![1, 0]) (.efficientRisk 0.8 false) exO (exW : World 2).heap) ∧
    run exU S (exD ![1, 0]) (.efficientRisk 0.5 false) exO (exW : World 2).heap =
      (.error .valueError, exO, (exW : World 2).heap) := by
  have h := fun t => C44_achievable_partial (S := S) (exU_usable ![1, 0]) rfl rfl PosSemidef.one isPinv_one two_pos
    ⟨fun _ => 1, one_mulVec _⟩ exW_reachable exW_get t false
  refine ⟨((h 0.8).2 ⟨![0.5, 0.5], ?_, ?_⟩).2 rfl rfl, (h 0.5).1 fun w hw => ?_⟩
  · norm_num [Fin.sum_univ_two]
  · show vol (1 : Matrix (Fin 2) (Fin 2) ℝ) _ ≤ _
    rw [vol_two, Real.sqrt_le_left (by norm_num)]
    norm_num
  · show _ < vol (1 : Matrix (Fin 2) (Fin 2) ℝ) _
    rw [vol_two]
    rw [Fin.sum_univ_two] at hw
    refine Real.lt_sqrt_of_sq_lt ?_
    nlinarith [sq_nonneg (w 0 - w 1)]

/-- If no portfolio has equal covariances with all assets, some fully invested portfolio has no risk at all. -/
theorem C44_riskless_exists {n : ℕ} {cov P : Matrix (Fin n) (Fin n) ℝ} (hs : cov.PosSemidef) (hP : IsPinv cov P)
    (h1 : ¬ ∃ x, cov *ᵥ x = fun _ => 1) : ∃ w : Fin n → ℝ, ∑ i, w i = 1 ∧ vol cov w = 0 := by
  have hsym := Verif.Risk.psd_symm hs
  let r : Fin n → ℝ := (fun _ => 1) - cov *ᵥ (P *ᵥ fun _ => 1)
  have hAr : cov *ᵥ r = 0 := by
    have e : cov * (cov * P) = cov := by
      have := congrArg Matrix.transpose hP.apa
      rw [transpose_mul, transpose_mul, hsym] at this
      rw [← hP.symA, transpose_mul, hsym, ← Matrix.mul_assoc, Matrix.mul_assoc]
      exact this
    rw [mulVec_sub, mulVec_mulVec, mulVec_mulVec, Matrix.mul_assoc, e, sub_self]
  have hr : r ≠ 0 := by
    intro h
    exact h1 ⟨P *ᵥ fun _ => 1, (sub_eq_zero.1 h).symm⟩
  have hrr : ∑ i, r i = r ⬝ᵥ r := by
    have e : r ⬝ᵥ cov *ᵥ (P *ᵥ fun _ => 1) = 0 := by
      rw [dot_symm hsym, hAr, dotProduct_zero]
    have e2 : r ⬝ᵥ r = r ⬝ᵥ (fun _ => 1) - r ⬝ᵥ cov *ᵥ (P *ᵥ fun _ => 1) := dotProduct_sub _ _ _
    rw [e2, e, sub_zero]
    simp [dotProduct]
  have hpos : r ⬝ᵥ r ≠ 0 := fun h => hr (dotProduct_self_eq_zero.1 h)
  refine ⟨(r ⬝ᵥ r)⁻¹ • r, ?_, ?_⟩
  · simp only [Pi.smul_apply, smul_eq_mul]
    rw [← Finset.mul_sum, hrr, inv_mul_cancel₀ hpos]
  · rw [vol, mulVec_smul, hAr]
    simp

/-- Data with a covariance matrix and its pseudo-inverse. -/
def covD (cov pinv : Matrix (Fin 2) (Fin 2) ℝ) : Data 2 := { (exD ![1, 0] : Data 2) with cov := cov, pinv := pinv }

theorem refused {cov pinv : Matrix (Fin 2) (Fin 2) ℝ} {t : ℝ} (h : numLt t (globalMinVol (covD cov pinv)))
    (mn : Bool) (o : OState 2) (x : Heap 2) :
    run exU S (covD cov pinv) (.efficientRisk t mn) o x = (.error .valueError, o, x) := by
  refine some_err (x := efficientRisk S (covD cov pinv) t mn) rfl ?_
  unfold efficientRisk
  by_cases ht : t < 0
  · rw [if_pos ht]; rfl
  · rw [if_neg ht, if_pos h]; rfl

/-- **C44 is false of the code** for singular covariance matrices: one asset of variance 1, one without risk.  Target
0.5 is refused, although everything in the second asset has volatility 0. -/
theorem C44_singular_false (mn : Bool) (o : OState 2) (h : Heap 2) :
    (!![1, 0; 0, 0] : Matrix (Fin 2) (Fin 2) ℝ).PosSemidef ∧
    IsPinv (!![1, 0; 0, 0] : Matrix (Fin 2) (Fin 2) ℝ) !![1, 0; 0, 0] ∧
    run exU S (covD !![1, 0; 0, 0] !![1, 0; 0, 0]) (.efficientRisk 0.5 mn) o h = (.error .valueError, o, h) ∧
    ∑ i, (![0, 1] : Fin 2 → ℝ) i = 1 ∧ vol !![1, 0; 0, 0] (![0, 1] : Fin 2 → ℝ) = 0 := by
  refine ⟨?_, ?_, refused ?_ mn o h, by simp, ?_⟩
  · refine Verif.Risk.psd_of (by ext i j; fin_cases i <;> fin_cases j <;> rfl) fun x => ?_
    simp [dotProduct, mulVec, Fin.sum_univ_two]
    exact mul_self_nonneg _
  · constructor <;> ext i j <;> fin_cases i <;> fin_cases j <;> simp [Matrix.mul_apply, Fin.sum_univ_two]
  · have : globalMinVol (covD !![1, 0; 0, 0] !![1, 0; 0, 0]) = .fin 1 := by
      simp [globalMinVol, covD, Perf.fdiv, Perf.fsqrt, Fin.sum_univ_two]
    rw [this]
    show (0.5 : ℝ) < 1
    norm_num
  · simp [vol, dotProduct, mulVec, Fin.sum_univ_two]

/-- **C44 is false of the code** for a perfectly hedged pair: the entries of the pseudo-inverse sum to zero, and every
target is refused, although half and half has volatility 0. -/
theorem C44_hedge_false (t : ℝ) (mn : Bool) (o : OState 2) (h : Heap 2) :
    (!![1, -1; -1, 1] : Matrix (Fin 2) (Fin 2) ℝ).PosSemidef ∧
    IsPinv (!![1, -1; -1, 1] : Matrix (Fin 2) (Fin 2) ℝ) !![1 / 4, -1 / 4; -1 / 4, 1 / 4] ∧
    run exU S (covD !![1, -1; -1, 1] !![1 / 4, -1 / 4; -1 / 4, 1 / 4]) (.efficientRisk t mn) o h =
      (.error .valueError, o, h) ∧
    ∑ i, (![1 / 2, 1 / 2] : Fin 2 → ℝ) i = 1 ∧ vol !![1, -1; -1, 1] (![1 / 2, 1 / 2] : Fin 2 → ℝ) = 0 := by
  refine ⟨?_, ?_, refused ?_ mn o h, by norm_num [Fin.sum_univ_two], ?_⟩
  · refine Verif.Risk.psd_of (by ext i j; fin_cases i <;> fin_cases j <;> rfl) fun x => ?_
    simp only [dotProduct, mulVec, Fin.sum_univ_two]
    simp
    nlinarith [sq_nonneg (x 0 - x 1)]
  · constructor <;> ext i j <;> fin_cases i <;> fin_cases j <;>
      simp [Matrix.mul_apply, Fin.sum_univ_two] <;> norm_num
  · have : globalMinVol (covD !![1, -1; -1, 1] !![1 / 4, -1 / 4; -1 / 4, 1 / 4]) = .posInf := by
      have e : ∑ i, ∑ j, (!![1 / 4, -1 / 4; -1 / 4, 1 / 4] : Matrix (Fin 2) (Fin 2) ℝ) i j = 0 := by
        simp [Fin.sum_univ_two]; norm_num
      unfold globalMinVol covD Perf.fdiv
      dsimp only
      rw [e]
      simp
    rw [this]
    trivial
  · simp [vol, dotProduct, mulVec, Fin.sum_univ_two]

/-- **C44 is false of the code** for market-neutral portfolios: of two uncorrelated assets of variance 1, target 0.5 is
refused, although (0.3, -0.3) has volatility less than 0.5. -/
theorem C44_neutral_false (o : OState 2) (h : Heap 2) :
    run exU S (exD ![1, 0]) (.efficientRisk 0.5 true) o h = (.error .valueError, o, h) ∧
    ∑ i, (![0.3, -0.3] : Fin 2 → ℝ) i = 0 ∧
    vol (exD ![1, 0] : Data 2).cov ![0.3, -0.3] < 0.5 := by
  refine ⟨?_, by norm_num [Fin.sum_univ_two], ?_⟩
  · refine some_err (x := efficientRisk S (exD ![1, 0]) 0.5 true) rfl ?_
    unfold efficientRisk
    rw [if_neg (by norm_num), if_pos (by
        rw [exGlobal]
        show (0.5 : ℝ) < _
        exact Real.lt_sqrt_of_sq_lt (by norm_num))]
    rfl
  · show vol (1 : Matrix (Fin 2) (Fin 2) ℝ) _ < _
    rw [vol_two, Real.sqrt_lt' (by norm_num)]
    norm_num

/-! ### C45 -/

open Classical in
/-- An exact solver that raises nothing. -/
theorem exists_quiet {n : ℕ} : ∃ S : Solver n, Exact S ∧ ∀ k P e, S k P ≠ .raised e := by
  refine ⟨fun _ P => if h : ∃ x : Asg n × ℝ, IsOpt P x.1 x.2 then .optimal h.choose.1 h.choose.2 else .status none,
    ⟨?_, ?_⟩, ?_⟩
  · intro k P
    split
    · rename_i h; exact h.choose_spec
    · trivial
  · intro k P s v h
    have hx : ∃ x : Asg n × ℝ, IsOpt P x.1 x.2 := ⟨(s, v), h⟩
    exact ⟨_, _, dif_pos hx⟩
  · intro k P e
    dsimp only
    split <;> exact nofun

theorem parFree_nil {n : ℕ} {U : Uni n} : ParFree U exCfg := nofun

/-- Returns (1, 0): target 0.7 is not refused. -/
example : ∃ S : Solver 2, (run exU S (exD ![1, 0]) (.efficientReturn true 0.7 false) exO (exW : World 2).heap).1 ≠
    .error .valueError := by
  obtain ⟨S, hS, hq⟩ := exists_quiet (n := 2)
  refine ⟨S, C45_achievable_partial (exU_usable _) rfl rfl (mu := ![1, 0]) rfl hS.right (fun k P => hq k P _)
    exW_reachable exW_get (.inl parFree_nil) (w := ![1, 0]) (usr := fun _ => 0) ⟨?_, nofun, ?_⟩ ?_ (.inr rfl) false⟩
  · exact exWithin.2 fun i => by fin_cases i <;> norm_num
  · norm_num [Fin.sum_univ_two]
  · rw [ret_two]; norm_num

/-- A new object with weights between -1 and 1. -/
def shortCfg : Cfg 2 := ⟨fun _ => ((-1 : ℝ) : EReal), fun _ => ((1 : ℝ) : EReal), [], []⟩

def shortW : World 2 := newWorld (fun _ => ((-1 : ℝ) : EReal)) (fun _ => ((1 : ℝ) : EReal)) (fun _ => 0)

def shortO : OState 2 :=
  (mapBounds (fun _ => ((-1 : ℝ) : EReal)) (fun _ => ((1 : ℝ) : EReal)) blank (heap₀ (fun _ => 0))).2.1

theorem shortWithin (mn : Bool) (w : Fin 2 → ℝ) : Within shortCfg mn w ↔ ∀ i, -1 ≤ w i ∧ w i ≤ 1 := by
  have h : ¬ (mn = true ∧ ∀ i, 0 ≤ shortCfg.lb i) := by
    rintro ⟨-, h⟩
    have := h 0
    rw [show (0 : EReal) = ((0 : ℝ) : EReal) from EReal.coe_zero.symm] at this
    have := EReal.coe_le_coe_iff.1 this
    norm_num at this
  unfold Within
  rw [if_neg h]
  exact forall_congr' fun i => and_congr EReal.coe_le_coe_iff EReal.coe_le_coe_iff

theorem short_max (h : Heap 2) : IsOpt (maxProb exU shortCfg h.upar ![0.1, -0.1]) (ofW ![1, 0]) (-0.1) := by
  have ob : ∀ s : Asg 2, (maxProb exU shortCfg h.upar ![0.1, -0.1]).obj s =
      ((-(s.w 0 * 0.1 + s.w 1 * -0.1) : ℝ) : EReal) := by
    intro s
    have e : (maxProb exU shortCfg h.upar ![0.1, -0.1]).obj s = ((-(s.w ⬝ᵥ ![0.1, -0.1]) : ℝ) : EReal) + 0 := rfl
    rw [e, add_zero, ret_two]
    rfl
  refine ⟨⟨(shortWithin false _).2 fun i => ?_, nofun, ?_, trivial⟩, ?_, fun s hs => ?_⟩
  · fin_cases i <;> norm_num [ofW]
  · norm_num [ofW, Fin.sum_univ_two]
  · rw [ob, EReal.coe_eq_coe_iff]
    norm_num [ofW]
  · rw [ob, ob, EReal.coe_le_coe_iff]
    have h1 := (shortWithin false _).1 hs.1
    have h2 : ∑ i, s.w i = 1 := hs.2.2.1
    rw [Fin.sum_univ_two] at h2
    have := (h1 0).2
    show -(1 * 0.1 + 0 * -0.1) ≤ _
    linarith

/-- **C45 is false of the code** for market-neutral portfolios: the largest return is computed for fully invested ones.
Returns (0.1, -0.1), weights between -1 and 1, target 0.15, which (1, -1) exceeds: refused. -/
theorem C45_neutral_false (hS : Exact S) :
    Reachable exU S (exD ![0.1, -0.1]) shortW ∧ shortW.objs[0]? = some (shortCfg, shortO) ∧
    (run exU S (exD ![0.1, -0.1]) (.efficientReturn true 0.15 true) shortO shortW.heap).1 = .error .valueError ∧
    Admissible exU shortCfg shortW.heap.upar true ![1, -1] (fun _ => 0) ∧
    0.15 < (![1, -1] : Fin 2 → ℝ) ⬝ᵥ ![0.1, -0.1] := by
  have hr : Reachable exU S (exD ![0.1, -0.1]) shortW := .new _ _ _
  obtain ⟨s, e, -⟩ := hS.sol shortW.heap.log.length (short_max shortW.heap)
  refine ⟨hr, rfl, ?_, ⟨(shortWithin true _).2 fun i => ?_, nofun, ?_⟩, ?_⟩
  · exact ((C39_first_return_reaches (exU_usable _) hr (j := 0) (cfg := shortCfg) (o := shortO) rfl rfl (.inl rfl)
      rfl rfl rfl e 0.15 true).1 (by norm_num)).1
  · fin_cases i <;> norm_num
  · norm_num [Fin.sum_univ_two]
  · rw [ret_two]; norm_num

/-- The user's constraint `w[0] <= p` with a parameter `p`. -/
def capU : Uni 2 :=
  { (exU : Uni 2) with
    con := fun _ => .ineq 1 ⟨false, [], fun e _ => ((e.w 0 : ℝ) : EReal)⟩ ⟨false, [0], fun e _ => ((e.par 0 : ℝ) : EReal)⟩ }

theorem capU_usable (mu : Fin 2 → ℝ) : Usable capU (exD mu) where
  names _ := by simp [capU, exU]
  scalar _ := rfl
  cons _ := ⟨nofun, nofun⟩
  mu := nofun
  tail := by rintro (h | h) <;> cases h

def capCfg : Cfg 2 := ⟨fun _ => 0, fun _ => 1, [], [.usr 0]⟩

def capO : OState 2 := { (exO : OState 2) with cons := exO.cons ++ [capU.mkCon 0] }

/-- The constraint has been added, and `p` is 1/2. -/
def capW : World 2 := ⟨[(capCfg, capO)], (newWorld (fun _ => 0) (fun _ => 1) (fun _ => 1 / 2) : World 2).heap⟩

theorem capW_reachable {D : Data 2} : Reachable capU S D capW := by
  have h := Step.call (U := capU) (S := S) (D := D) (W := newWorld (fun _ => 0) (fun _ => 1) (fun _ => 1 / 2))
    (j := 0) rfl (.addConstraint true (.ok 0))
  exact .step (.new (fun _ => 0) (fun _ => 1) (fun _ => 1 / 2)) h

theorem cap_adm {upar : ℕ → ℝ} {w : Fin 2 → ℝ} {u : ℕ → ℝ} : Admissible capU capCfg upar false w u ↔
    (∀ i, 0 ≤ w i ∧ w i ≤ 1) ∧ w 0 ≤ upar 0 ∧ w 0 + w 1 = 1 := by
  have hc : (Added.usr 0 : Added 2).holds capU upar ⟨w, u, fun _ _ => 0⟩ ↔ w 0 ≤ upar 0 := by
    show (∀ _ : Fin 1, ((w 0 : ℝ) : EReal) ≤ ((upar 0 : ℝ) : EReal)) ↔ _
    simp only [EReal.coe_le_coe_iff, forall_const]
  rw [← hc, ← Fin.sum_univ_two]
  refine ⟨fun h => ⟨(exWithin (n := 2)).1 h.within, h.cons _ (List.mem_singleton.2 rfl), h.sum⟩, fun h =>
    ⟨(exWithin (n := 2)).2 h.1, fun x hx => ?_, h.2.2⟩⟩
  rw [List.mem_singleton.1 hx]
  exact h.2.1

theorem cap_max : IsOpt (maxProb capU capCfg capW.heap.upar ![1, 0]) (ofW ![1 / 2, 1 / 2]) (-(1 / 2)) := by
  have ob : ∀ s : Asg 2, (maxProb capU capCfg capW.heap.upar ![1, 0]).obj s = ((-(s.w 0) : ℝ) : EReal) := by
    intro s
    have e : (maxProb capU capCfg capW.heap.upar ![1, 0]).obj s = ((-(s.w ⬝ᵥ ![1, 0]) : ℝ) : EReal) + 0 := rfl
    rw [e, add_zero, ret_two]
    norm_num
  have h := (cap_adm (upar := capW.heap.upar) (w := ![1 / 2, 1 / 2]) (u := fun _ => 0)).2 ⟨fun i => by
    fin_cases i <;> norm_num, le_refl (1 / 2 : ℝ), by norm_num⟩
  refine ⟨⟨h.within, h.cons, h.sum, trivial⟩, ?_, fun s hs => ?_⟩
  · rw [ob, EReal.coe_eq_coe_iff]; rfl
  · rw [ob, ob, EReal.coe_le_coe_iff]
    have h0 : ∀ _ : Fin 1, ((s.w 0 : ℝ) : EReal) ≤ ((1 / 2 : ℝ) : EReal) :=
      hs.2.1 (.usr 0) (List.mem_singleton.2 rfl)
    have h1 : s.w 0 ≤ 1 / 2 := EReal.coe_le_coe_iff.1 (h0 0)
    show -(1 / 2 : ℝ) ≤ _
    linarith

/-- **C45 is false of the code** after a parameter has been changed: the largest return is cached.  Returns (1, 0),
the user's constraint `w[0] <= p`.  With `p = 0.5` the target 0.8 is rightly refused; after `p.value = 1` it is still
refused by the same object, although (0.8, 0.2) reaches it. -/
theorem C45_stale_cache_false (hS : Exact S) :
    ∃ o h, run capU S (exD ![1, 0]) (.efficientReturn true 0.8 false) capO capW.heap = (.error .valueError, o, h) ∧
      ∃ o' h', run capU S (exD ![1, 0]) (.setPar 0 1) o h = (.ok none, o', h') ∧
      (run capU S (exD ![1, 0]) (.efficientReturn true 0.8 false) o' h').1 = .error .valueError ∧
      Admissible capU capCfg h'.upar false ![0.8, 0.2] (fun _ => 0) ∧
      0.8 ≤ (![0.8, 0.2] : Fin 2 → ℝ) ⬝ᵥ ![1, 0] := by
  obtain ⟨s, e, -⟩ := hS.sol capW.heap.log.length cap_max
  obtain ⟨k1, k2⟩ := (C39_first_return_reaches (capU_usable _) (capW_reachable (S := S)) (j := 0) (cfg := capCfg)
    (o := capO) rfl rfl (.inl rfl) rfl rfl rfl e 0.8 false).1 (by norm_num)
  rcases hr : run capU S (exD ![1, 0]) (.efficientReturn true 0.8 false) capO capW.heap with ⟨r, o, h⟩
  rw [hr] at k1 k2
  cases k1
  dsimp only at k2
  refine ⟨o, h, rfl, o, { h with upar := Function.update h.upar 0 1 }, rfl, ?_, ?_, ?_⟩
  · have := some_err (U := capU) (S := S) (D := exD ![1, 0]) (c := .efficientReturn true 0.8 false) (o := o)
      (h := { h with upar := Function.update h.upar 0 1 })
      (x := efficientReturn S (exD ![1, 0]) true 0.8 false) rfl (by
        have e := checkMax_cached (S := S) (D := exD ![1, 0]) (o := o)
          (h := { h with upar := Function.update h.upar 0 1 }) (m := 1 / 2)
          (by rw [k2]; norm_num) (by norm_num) 0.8
        rw [if_pos (by norm_num)] at e
        exact bind_err e)
    rw [this]
  · refine cap_adm.2 ⟨fun i => ?_, ?_, by norm_num⟩
    · fin_cases i <;> norm_num
    · simp; norm_num
  · rw [ret_two]; norm_num

end Verif.Convex
