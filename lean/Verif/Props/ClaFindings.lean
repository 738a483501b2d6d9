import Verif.Props.ClaKkt
import Mathlib.Data.Rat.Floor

/-! C53–C56: statements about CLA that fail, each with a concrete witness run of the model. -/

set_option linter.unusedSectionVars false

namespace Verif.Cla
open Verif.Py

variable {n : ℕ}

/-- `x` dominates `w`: feasible, at least the return, strictly less variance. -/
def Dominates (p : Problem n ℚ) (x w : Fin n → ℚ) : Prop :=
  Feasible p x ∧ expRet p w ≤ expRet p x ∧ var p x < var p w

/-- C53 (fails): a point of `efficient_frontier` that a feasible portfolio dominates, for a positive
definite covariance, distinct means, and an exact matrix inverse.  `_get_matrices` (cla.py:185) slices
the bound weights from the last *stored* solution, so the turning point computed right after an asset is
bound uses the asset's previous weight; it does not sum to one, and is purged. -/
theorem C53_frontier_efficient_false : ∃ (s' : State 3 ℚ) (ws : List (Fin 3 → ℚ)) (w x : Fin 3 → ℚ),
    SymmCov p3 ∧ PosDef p3 ∧ smallInv.Sound ∧
    efficientFrontier p3 smallInv 10 12 {} = some (s', .ok ws) ∧ w ∈ ws ∧ Feasible p3 w ∧
    Dominates p3 x w := by
  obtain ⟨s', ws, h⟩ : ∃ s' ws, efficientFrontier p3 smallInv 10 12 {} = some (s', .ok ws) := by
    have : (match efficientFrontier p3 smallInv 10 12 {} with | some (_, .ok _) => true | _ => false) = true := by
      decide +kernel
    split at this
    · rename_i s' ws h; exact ⟨s', ws, h⟩
    · cases this
  have hmem : (match efficientFrontier p3 smallInv 10 12 {} with
      | some (_, .ok ws) => decide (![17/40, 1/8, 9/20] ∈ ws) | _ => false) = true := by decide +kernel
  rw [h] at hmem
  refine ⟨s', ws, ![17/40, 1/8, 9/20], ![39/80, 0, 41/80], p3_symm, p3_posDef, smallInv_sound, h,
    by simpa using hmem, ⟨by decide +kernel, by decide +kernel⟩, ⟨by decide +kernel, by decide +kernel⟩,
    by decide +kernel, by decide +kernel⟩

/-- C54 (fails): `max_sharpe` on the same problem.  Whatever function is used as the Sharpe ratio, the
returned portfolio has squared return below twice its variance, while a feasible portfolio with positive
return attains twice its variance: its Sharpe ratio is strictly larger. -/
theorem C54_max_sharpe_optimal_false (sharpe : (Fin 3 → ℚ) → ℚ) (s' : State 3 ℚ)
    (w : Fin 3 → ℚ) (h : maxSharpe p3 smallInv sharpe 10 {} = some (s', .ok w)) :
    expRet p3 w ^ 2 < 2 * var p3 w ∧
    Feasible p3 ![1/4, 0, 3/4] ∧ 0 < expRet p3 ![1/4, 0, 3/4] ∧
      expRet p3 ![1/4, 0, 3/4] ^ 2 = 2 * var p3 ![1/4, 0, 3/4] := by
  refine ⟨?_, ⟨by decide +kernel, by decide +kernel⟩, by decide +kernel, by decide +kernel⟩
  obtain ⟨⟨w0, w1, a, hadj, h0, h1, rfl⟩, -⟩ := C19_max_sharpe p3 smallInv sharpe 10 s' w h
  have hs : ∃ u, solve p3 smallInv 10 {} = some (s', u) ∧ u = .ok () := by
    unfold maxSharpe at h
    rw [ensureSolved_fresh] at h
    split at h
    · cases h
    · cases h
    · rename_i s1 u hs
      simp only [Option.some.injEq, Prod.mk.injEq] at h
      obtain ⟨rfl, -⟩ := h
      exact ⟨_, hs, rfl⟩
  obtain ⟨_, hs, rfl⟩ := hs
  have hpairs : (match solve p3 smallInv 10 {} with
      | some (s, .ok _) => decide (s.w = [![1, 0, 0], ![1, 0, 0], ![3/4, 1/4, 0], ![1/10, 0, 9/10]])
      | _ => false) = true := by decide +kernel
  rw [hs] at hpairs
  have hw : s'.w = [![1, 0, 0], ![1, 0, 0], ![3/4, 1/4, 0], ![1/10, 0, 9/10]] := by simpa using hpairs
  rw [hw] at hadj
  have hcases : (w0 = ![1, 0, 0] ∧ w1 = ![1, 0, 0]) ∨ (w0 = ![1, 0, 0] ∧ w1 = ![3/4, 1/4, 0]) ∨
      (w0 = ![3/4, 1/4, 0] ∧ w1 = ![1/10, 0, 9/10]) := by
    obtain ⟨l, r, he⟩ := hadj
    rcases l with _ | ⟨a1, _ | ⟨a2, _ | ⟨a3, _ | ⟨a4, l⟩⟩⟩⟩
    · simp only [List.nil_append, List.cons.injEq] at he
      exact .inl ⟨he.1.symm, he.2.1.symm⟩
    · simp only [List.cons_append, List.nil_append, List.cons.injEq] at he
      exact .inr (.inl ⟨he.2.1.symm, he.2.2.1.symm⟩)
    · simp only [List.cons_append, List.nil_append, List.cons.injEq] at he
      exact .inr (.inr ⟨he.2.2.1.symm, he.2.2.2.1.symm⟩)
    · simp only [List.cons_append, List.nil_append, List.cons.injEq] at he
      exact absurd he.2.2.2.2 (by simp)
    · have := congrArg List.length he
      simp at this
  have hret : ∀ x : Fin 3 → ℚ, expRet p3 x = 3/10 * x 0 + 2/10 * x 1 + 1/10 * x 2 := fun x =>
    Fin.sum_univ_three _
  have hvar : ∀ x : Fin 3 → ℚ, var p3 x = x 0 * (9/100 * x 0 + 4/100 * x 1 + 0 * x 2) +
      x 1 * (4/100 * x 0 + 4/100 * x 1 + 1/100 * x 2) + x 2 * (0 * x 0 + 1/100 * x 1 + 1/100 * x 2) := by
    intro x
    unfold var
    rw [Fin.sum_univ_three, (p3_cov x).1, (p3_cov x).2.1, (p3_cov x).2.2]
  rw [hret, hvar]
  rcases hcases with ⟨rfl, rfl⟩ | ⟨rfl, rfl⟩ | ⟨rfl, rfl⟩
  · have e0 : mix a ![(1 : ℚ), 0, 0] ![1, 0, 0] 0 = a * 1 + (1 - a) * 1 := rfl
    have e1 : mix a ![(1 : ℚ), 0, 0] ![1, 0, 0] 1 = a * 0 + (1 - a) * 0 := rfl
    have e2 : mix a ![(1 : ℚ), 0, 0] ![1, 0, 0] 2 = a * 0 + (1 - a) * 0 := rfl
    rw [e0, e1, e2]
    nlinarith
  · have e0 : mix a ![(1 : ℚ), 0, 0] ![3/4, 1/4, 0] 0 = a * 1 + (1 - a) * (3/4) := rfl
    have e1 : mix a ![(1 : ℚ), 0, 0] ![3/4, 1/4, 0] 1 = a * 0 + (1 - a) * (1/4) := rfl
    have e2 : mix a ![(1 : ℚ), 0, 0] ![3/4, 1/4, 0] 2 = a * 0 + (1 - a) * 0 := rfl
    rw [e0, e1, e2]
    nlinarith [sq_nonneg a]
  · have e0 : mix a ![(3/4 : ℚ), 1/4, 0] ![1/10, 0, 9/10] 0 = a * (3/4) + (1 - a) * (1/10) := rfl
    have e1 : mix a ![(3/4 : ℚ), 1/4, 0] ![1/10, 0, 9/10] 1 = a * (1/4) + (1 - a) * 0 := rfl
    have e2 : mix a ![(3/4 : ℚ), 1/4, 0] ![1/10, 0, 9/10] 2 = a * 0 + (1 - a) * (9/10) := rfl
    rw [e0, e1, e2]
    nlinarith [sq_nonneg (a - 1/4), sq_nonneg a]

/-- Not vacuous: the run does return. -/
example : (match maxSharpe p3 smallInv (fun w => expRet p3 w / var p3 w) 10 {} with
    | some (_, .ok _) => true | _ => false) = true := by decide +kernel

/-! C55 -/

/-- Two assets with equal expected returns. -/
def pEq : Problem 2 ℚ where
  mean := fun _ => 1/10
  cov := fun i j => if i = j then (if i = 0 then 4/100 else 1/100) else 0
  lB := fun _ => 0
  uB := fun _ => 1

/-- C55 (fails): with equal expected returns the first call raises TypeError; the second call returns
normally, with a portfolio that is not of least variance: the failed `_solve` left its first turning
point in `self.w` and `if not self.w` takes it for a finished solution. -/
theorem C55_failed_solve_reused_false : ∃ (s1 s2 : State 2 ℚ) (w x : Fin 2 → ℚ),
    minVolatility pEq smallInv 10 {} = some (s1, .error .typeError) ∧
    minVolatility pEq smallInv 10 s1 = some (s2, .ok w) ∧ Feasible pEq x ∧ var pEq x < var pEq w := by
  have h1 : (match minVolatility pEq smallInv 10 {} with
      | some (s1, .error .typeError) => (match minVolatility pEq smallInv 10 s1 with
        | some (_, .ok w) => decide (w = ![0, 1]) | _ => false)
      | _ => false) = true := by decide +kernel
  split at h1
  · rename_i s1 hs1
    split at h1
    · rename_i s2 w hs2
      have hw : w = ![0, 1] := by simpa using h1
      subst hw
      exact ⟨s1, s2, _, ![1/5, 4/5], hs1, hs2, ⟨by decide +kernel, by decide +kernel⟩, by decide +kernel⟩
    · cases h1
  · cases h1

/-! C56 -/

/-- Conversion to an integer dtype: truncation towards zero. -/
def trunc (x : ℚ) : ℚ := if 0 ≤ x then ⌊x⌋ else ⌈x⌉

/-- Two assets; `true` = bounds spelled per asset with Python ints, `[(0, 1), (0, 1)]`. -/
def pSpell (ints : Bool) : Problem 2 ℚ where
  mean := ![2/10, 1/10]
  cov := fun i j => if i = j then (if i = 0 then 4/100 else 1/100) else 0
  lB := fun _ => 0
  uB := fun _ => 1
  store := if ints then trunc else id

/-- C56 (fails): `(0, 1)` and `[(0, 1), (0, 1)]` describe the same bounds, but the second spelling makes
the arrays integer and the weights are truncated as they are written; `min_volatility` then returns a
portfolio that is five times as variable as the one returned for the first spelling. -/
theorem C56_integer_bounds_false : ∃ (s1 s2 : State 2 ℚ) (w1 w2 : Fin 2 → ℚ),
    minVolatility (pSpell false) smallInv 10 {} = some (s1, .ok w1) ∧
    minVolatility (pSpell true) smallInv 10 {} = some (s2, .ok w2) ∧
    var (pSpell false) w2 = 5 * var (pSpell false) w1 := by
  have h1 : (match minVolatility (pSpell false) smallInv 10 {} with
      | some (_, .ok w) => decide (w = ![1/5, 4/5]) | _ => false) = true := by decide +kernel
  have h2 : (match minVolatility (pSpell true) smallInv 10 {} with
      | some (_, .ok w) => decide (w = ![1, 0]) | _ => false) = true := by decide +kernel
  split at h1
  · rename_i s1 w1 hs1
    split at h2
    · rename_i s2 w2 hs2
      have e1 : w1 = ![1/5, 4/5] := by simpa using h1
      have e2 : w2 = ![1, 0] := by simpa using h2
      subst e1 e2
      exact ⟨s1, s2, _, _, hs1, hs2, by decide +kernel⟩
    · cases h2
  · cases h1

end Verif.Cla
