import Verif.Model.Cla
import Mathlib.Algebra.BigOperators.Fin
import Mathlib.Data.Fin.VecNotation
import Mathlib.Tactic.FinCases
import Mathlib.Tactic.FieldSimp
import Mathlib.Tactic.Ring

/-! A concrete inversion routine for matrices of order at most three, used to instantiate theorems about
the oracle `np.linalg.inv`. -/

namespace Verif.Cla
open Verif.Py

variable {K : Type} [Field K] [LinearOrder K] [IsStrictOrderedRing K]

def smallInvOf (K : Type) [Field K] [LinearOrder K] : Inv K
  | 1, A => if A 0 0 = 0 then .error .linAlg else .ok (fun _ _ => 1 / A 0 0)
  | 2, A =>
    let d := A 0 0 * A 1 1 - A 0 1 * A 1 0
    if d = 0 then .error .linAlg else
      .ok (fun i j => ![![A 1 1 / d, -A 0 1 / d], ![-A 1 0 / d, A 0 0 / d]] i j)
  | 3, A =>
    let d := A 0 0 * (A 1 1 * A 2 2 - A 1 2 * A 2 1) - A 0 1 * (A 1 0 * A 2 2 - A 1 2 * A 2 0)
      + A 0 2 * (A 1 0 * A 2 1 - A 1 1 * A 2 0)
    if d = 0 then .error .linAlg else
      .ok (fun i j => ![
        ![(A 1 1 * A 2 2 - A 1 2 * A 2 1) / d, (A 0 2 * A 2 1 - A 0 1 * A 2 2) / d,
          (A 0 1 * A 1 2 - A 0 2 * A 1 1) / d],
        ![(A 1 2 * A 2 0 - A 1 0 * A 2 2) / d, (A 0 0 * A 2 2 - A 0 2 * A 2 0) / d,
          (A 0 2 * A 1 0 - A 0 0 * A 1 2) / d],
        ![(A 1 0 * A 2 1 - A 1 1 * A 2 0) / d, (A 0 1 * A 2 0 - A 0 0 * A 2 1) / d,
          (A 0 0 * A 1 1 - A 0 1 * A 1 0) / d]] i j)
  | _, _ => .error .linAlg

theorem smallInvOf_sound : (smallInvOf K).Sound := by
  intro m A B h
  match m, A, B, h with
  | 0, A, B, h => cases h
  | 1, A, B, h =>
    simp only [smallInvOf] at h
    split at h
    · cases h
    · rename_i hd
      cases h
      constructor <;> intro i j <;> fin_cases i <;> fin_cases j <;> simp [hd]
  | 2, A, B, h =>
    obtain ⟨d, hdef⟩ : ∃ d, d = A 0 0 * A 1 1 - A 0 1 * A 1 0 := ⟨_, rfl⟩
    simp only [smallInvOf, ← hdef] at h
    split at h
    · cases h
    · rename_i hd
      cases h
      have h01 : ((0 : Fin 2) = 1) = False := by decide
      have h10 : ((1 : Fin 2) = 0) = False := by decide
      constructor <;> intro i j <;> fin_cases i <;> fin_cases j <;>
        simp only [Fin.sum_univ_two, Fin.zero_eta, Fin.mk_one, Fin.isValue, Matrix.cons_val_zero,
          Matrix.cons_val_one, Matrix.cons_val_fin_one, h01, h10, if_true, if_false] <;>
        field_simp <;> first | ring1 | (rw [hdef]; ring1)
  | 3, A, B, h =>
    obtain ⟨d, hdef⟩ : ∃ d, d = A 0 0 * (A 1 1 * A 2 2 - A 1 2 * A 2 1)
      - A 0 1 * (A 1 0 * A 2 2 - A 1 2 * A 2 0) + A 0 2 * (A 1 0 * A 2 1 - A 1 1 * A 2 0) := ⟨_, rfl⟩
    simp only [smallInvOf, ← hdef] at h
    split at h
    · cases h
    · rename_i hd
      cases h
      have h01 : ((0 : Fin 3) = 1) = False := by decide
      have h02 : ((0 : Fin 3) = 2) = False := by decide
      have h10 : ((1 : Fin 3) = 0) = False := by decide
      have h12 : ((1 : Fin 3) = 2) = False := by decide
      have h20 : ((2 : Fin 3) = 0) = False := by decide
      have h21 : ((2 : Fin 3) = 1) = False := by decide
      constructor <;> intro i j <;> fin_cases i <;> fin_cases j <;>
        simp only [Fin.sum_univ_three, Fin.zero_eta, Fin.mk_one, Fin.isValue, Fin.reduceFinMk,
          Matrix.cons_val_zero, Matrix.cons_val_one, Matrix.cons_val, h01, h02, h10, h12, h20, h21,
          if_true, if_false] <;>
        field_simp <;> first | ring1 | (rw [hdef]; ring1)
  | (k + 4), A, B, h => cases h

abbrev smallInv : Inv ℚ := smallInvOf ℚ

theorem smallInv_sound : smallInv.Sound := smallInvOf_sound

end Verif.Cla
