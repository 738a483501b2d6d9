import Verif.Proof.ClaSmallInv
import Verif.Proof.ClaScale
import Mathlib.Data.Rat.Cast.Order
import Mathlib.Data.Real.Basic

/-! The small inversion routine under a change of unit and of field. -/

namespace Verif.Cla
open Verif.Py

variable {K L : Type} [Field K] [LinearOrder K] [IsStrictOrderedRing K] [Field L] [LinearOrder L] [IsStrictOrderedRing L]

theorem smallInv_rel (φ : K →+* L) {c : L} (hc : c ≠ 0) : InvRel φ c (smallInvOf K) (smallInvOf L) := by
  intro m A
  match m, A with
  | 0, A => rfl
  | 1, A =>
    have ht : ∀ i j, times φ c A i j = c * φ (A i j) := fun _ _ => rfl
    have e : times φ c A 0 0 = 0 ↔ A 0 0 = 0 := by rw [ht, mul_eq_zero, or_iff_right hc, map_eq_zero]
    simp only [smallInvOf, e]
    by_cases h : A 0 0 = 0
    · simp only [h, if_true]; rfl
    · simp only [h, if_false, Except.map]
      refine congrArg Except.ok ?_
      funext i j
      simp only [times, map_div₀, map_one]
      field_simp
  | 2, A =>
    have ht : ∀ i j, times φ c A i j = c * φ (A i j) := fun _ _ => rfl
    set d := A 0 0 * A 1 1 - A 0 1 * A 1 0 with hd
    have e : times φ c A 0 0 * times φ c A 1 1 - times φ c A 0 1 * times φ c A 1 0 = c ^ 2 * φ d := by
      rw [hd]; simp only [ht, map_sub, map_mul]; ring
    have e0 : c ^ 2 * φ d = 0 ↔ d = 0 := by rw [mul_eq_zero, or_iff_right (pow_ne_zero 2 hc), map_eq_zero]
    simp only [smallInvOf, e, e0, ← hd]
    by_cases h : d = 0
    · simp only [h, if_true]; rfl
    · have hφ : φ d ≠ 0 := fun x => h ((map_eq_zero φ).1 x)
      simp only [h, if_false, Except.map]
      refine congrArg Except.ok ?_
      funext i j
      fin_cases i <;> fin_cases j <;> simp [times] <;> field_simp
  | 3, A =>
    have ht : ∀ i j, times φ c A i j = c * φ (A i j) := fun _ _ => rfl
    set d := A 0 0 * (A 1 1 * A 2 2 - A 1 2 * A 2 1) - A 0 1 * (A 1 0 * A 2 2 - A 1 2 * A 2 0)
      + A 0 2 * (A 1 0 * A 2 1 - A 1 1 * A 2 0) with hd
    have e : times φ c A 0 0 * (times φ c A 1 1 * times φ c A 2 2 - times φ c A 1 2 * times φ c A 2 1) -
        times φ c A 0 1 * (times φ c A 1 0 * times φ c A 2 2 - times φ c A 1 2 * times φ c A 2 0) +
        times φ c A 0 2 * (times φ c A 1 0 * times φ c A 2 1 - times φ c A 1 1 * times φ c A 2 0) = c ^ 3 * φ d := by
      rw [hd]; simp only [ht, map_sub, map_mul, map_add]; ring
    have e0 : c ^ 3 * φ d = 0 ↔ d = 0 := by rw [mul_eq_zero, or_iff_right (pow_ne_zero 3 hc), map_eq_zero]
    simp only [smallInvOf, e, e0, ← hd]
    by_cases h : d = 0
    · simp only [h, if_true]; rfl
    · have hφ : φ d ≠ 0 := fun x => h ((map_eq_zero φ).1 x)
      simp only [h, if_false, Except.map]
      refine congrArg Except.ok ?_
      funext i j
      fin_cases i <;> fin_cases j <;> simp [times] <;> field_simp
  | (k + 4), A => rfl

/-- A problem with rational data, read as one with real data. -/
def Problem.real {n : ℕ} (p : Problem n ℚ) : Problem n ℝ where
  mean := fun i => (p.mean i : ℝ)
  cov := fun i j => (p.cov i j : ℝ)
  lB := fun i => (p.lB i : ℝ)
  uB := fun i => (p.uB i : ℝ)

theorem real_rel {n : ℕ} (p : Problem n ℚ) (h : p.store = id) : Rel (Rat.castHom ℝ) 1 1 p p.real where
  mono := Rat.cast_strictMono
  apos := one_pos
  cpos := one_pos
  mean := fun i => by simp [Problem.real]
  cov := fun i j => by simp [Problem.real]
  lB := fun i => rfl
  uB := fun i => rfl
  store := fun x => by rw [h]; rfl

end Verif.Cla
