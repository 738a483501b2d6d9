import Verif.Model.Discrete
import Mathlib.Tactic.Linarith
import Mathlib.Tactic.NormNum
import Mathlib.Tactic.Ring
import Mathlib.Tactic.Positivity
import Mathlib.Tactic.FieldSimp
import Mathlib.Algebra.Order.AbsoluteValue.Basic

/-! Facts about `np.rint` (round half to even). -/

set_option linter.unusedSectionVars false

namespace Verif.Discrete
variable {K : Type} [Field K] [LinearOrder K] [IsStrictOrderedRing K] [FloorRing K]

theorem rint_cases (x : K) : rint x = ⌊x⌋ ∧ x - ⌊x⌋ ≤ 1 / 2 ∨ rint x = ⌊x⌋ + 1 ∧ 1 / 2 ≤ x - ⌊x⌋ := by
  unfold rint
  dsimp only
  split
  · rename_i h; exact .inl ⟨rfl, h.le⟩
  · rename_i h
    split
    · rename_i h2; exact .inr ⟨rfl, h2.le⟩
    · rename_i h2
      split
      · exact .inl ⟨rfl, not_lt.1 h2⟩
      · exact .inr ⟨rfl, not_lt.1 h⟩

theorem rint_intCast (n : ℤ) : rint ((n : ℤ) : K) = n := by
  unfold rint; simp [Int.floor_intCast]

theorem rint_zero : rint (0 : K) = 0 := by
  have := rint_intCast (K := K) 0
  simpa using this

theorem abs_rint_sub_le (x : K) : |(rint x : K) - x| ≤ 1 / 2 := by
  have h1 := Int.floor_le x
  have h2 := Int.lt_floor_add_one x
  rcases rint_cases x with ⟨h, hd⟩ | ⟨h, hd⟩
  · rw [h, abs_le]; constructor <;> linarith
  · rw [h, abs_le]; push_cast; constructor <;> linarith

theorem rint_mono {x y : K} (h : x ≤ y) : rint x ≤ rint y := by
  have hx := rint_cases x
  have hy := rint_cases y
  have hf : ⌊x⌋ ≤ ⌊y⌋ := Int.floor_mono h
  rcases lt_or_eq_of_le hf with hlt | heq
  · rcases hx with ⟨a, -⟩ | ⟨a, -⟩ <;> rcases hy with ⟨b, -⟩ | ⟨b, -⟩ <;> omega
  · unfold rint
    dsimp only
    rw [← heq]
    split_ifs <;> first | omega | (exfalso; linarith)

/-- `rint x` is a closest integer: no integer is closer to `x`. -/
theorem rint_closest (x : K) (m : ℤ) : |(rint x : K) - x| ≤ |(m : K) - x| := by
  have h1 := Int.floor_le x
  have h2 := Int.lt_floor_add_one x
  have hm : m ≤ ⌊x⌋ ∨ ⌊x⌋ + 1 ≤ m := by omega
  have e : |(m : K) - x| = if m ≤ ⌊x⌋ then x - m else m - x := by
    split
    · rename_i h
      have : (m : K) ≤ ⌊x⌋ := by exact_mod_cast h
      rw [abs_of_nonpos (by linarith)]; ring
    · rename_i h
      have : (⌊x⌋ : K) + 1 ≤ m := by
        have : ⌊x⌋ + 1 ≤ m := by omega
        exact_mod_cast this
      rw [abs_of_nonneg (by linarith)]
  rw [e]
  rcases rint_cases x with ⟨h, hd⟩ | ⟨h, hd⟩ <;> rw [h]
  · rw [abs_of_nonpos (by linarith)]
    split
    · rename_i hc
      have : (m : K) ≤ ⌊x⌋ := by exact_mod_cast hc
      linarith
    · rename_i hc
      have : (⌊x⌋ : K) + 1 ≤ m := by
        have : ⌊x⌋ + 1 ≤ m := by omega
        exact_mod_cast this
      linarith
  · push_cast
    rw [abs_of_nonneg (by linarith)]
    split
    · rename_i hc
      have : (m : K) ≤ ⌊x⌋ := by exact_mod_cast hc
      linarith
    · rename_i hc
      have : (⌊x⌋ : K) + 1 ≤ m := by
        have : ⌊x⌋ + 1 ≤ m := by omega
        exact_mod_cast this
      linarith

end Verif.Discrete
