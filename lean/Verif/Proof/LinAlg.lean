import Verif.Spec.BlackLitterman
import Mathlib.LinearAlgebra.Matrix.DotProduct
import Mathlib.LinearAlgebra.FiniteDimensional.Basic
import Mathlib.Tactic.Linarith

/-! Sound linear algebra exists; consequences of the contract. -/

set_option linter.unusedSectionVars false
noncomputable section

namespace Verif.BL
open Verif.Py Matrix

theorem mulVec_self_transpose_zero {m c : ℕ} (A : Matrix (Fin m) (Fin c) ℝ) (y : Fin m → ℝ)
    (h : (A * Aᵀ) *ᵥ y = 0) : Aᵀ *ᵥ y = 0 := by
  have h1 : (Aᵀ *ᵥ y) ⬝ᵥ (Aᵀ *ᵥ y) = 0 := by
    have : y ⬝ᵥ ((A * Aᵀ) *ᵥ y) = 0 := by rw [h, dotProduct_zero]
    rw [← mulVec_mulVec, dotProduct_mulVec, ← mulVec_transpose] at this
    exact this
  exact dotProduct_self_eq_zero.1 h1

theorem vecMul_eq_tr {m c : ℕ} (A : Matrix (Fin m) (Fin c) ℝ) (y : Fin m → ℝ) : y ᵥ* A = Aᵀ *ᵥ y := by
  rw [mulVec_transpose]

/-- Every system has a least-squares solution in the row space. -/
theorem exists_lstsq_vec {m c : ℕ} (A : Matrix (Fin m) (Fin c) ℝ) (b : Fin m → ℝ) :
    ∃ y : Fin m → ℝ, Aᵀ *ᵥ (A *ᵥ (Aᵀ *ᵥ y)) = Aᵀ *ᵥ b := by
  set f : (Fin m → ℝ) →ₗ[ℝ] (Fin c → ℝ) := Aᵀ.mulVecLin with hf
  set g : (Fin c → ℝ) →ₗ[ℝ] (Fin c → ℝ) := (Aᵀ * A).mulVecLin with hg
  have hker : LinearMap.ker (g ∘ₗ f) = LinearMap.ker f := by
    apply le_antisymm
    · intro y hy
      rw [LinearMap.mem_ker] at hy ⊢
      have h0 : Aᵀ *ᵥ (A *ᵥ (Aᵀ *ᵥ y)) = 0 := by
        have := hy; simp only [hg, hf, LinearMap.comp_apply, mulVecLin_apply] at this
        rw [← mulVec_mulVec] at this; exact this
      have h1 : (A * Aᵀ) *ᵥ ((A * Aᵀ) *ᵥ y) = 0 := by
        rw [← mulVec_mulVec, ← mulVec_mulVec, h0, mulVec_zero]
      have h2 : ((A * Aᵀ) *ᵥ y) ⬝ᵥ ((A * Aᵀ) *ᵥ y) = 0 := by
        have h3 : y ⬝ᵥ ((A * Aᵀ) *ᵥ ((A * Aᵀ) *ᵥ y)) = 0 := by rw [h1, dotProduct_zero]
        rw [dotProduct_mulVec, vecMul_eq_tr, transpose_mul, transpose_transpose] at h3
        exact h3
      exact mulVec_self_transpose_zero A y (dotProduct_self_eq_zero.1 h2)
    · intro y hy
      rw [LinearMap.mem_ker] at hy ⊢
      rw [LinearMap.comp_apply, hy, map_zero]
  have hle : LinearMap.range (g ∘ₗ f) ≤ LinearMap.range f := by
    rintro _ ⟨y, rfl⟩
    refine ⟨A *ᵥ (f y), ?_⟩
    simp only [hg, hf, LinearMap.comp_apply, mulVecLin_apply, mulVec_mulVec, Matrix.mul_assoc]
  have hr : LinearMap.range (g ∘ₗ f) = LinearMap.range f := by
    apply Submodule.eq_of_le_of_finrank_eq hle
    have h1 := LinearMap.finrank_range_add_finrank_ker (g ∘ₗ f)
    have h2 := LinearMap.finrank_range_add_finrank_ker f
    rw [hker] at h1
    omega
  have hb : Aᵀ *ᵥ b ∈ LinearMap.range f := ⟨b, rfl⟩
  rw [← hr] at hb
  obtain ⟨y, hy⟩ := hb
  refine ⟨y, ?_⟩
  rw [← hy]
  simp only [hg, hf, LinearMap.comp_apply, mulVecLin_apply, mulVec_mulVec, Matrix.mul_assoc]

theorem exists_lstsq {m c r : ℕ} (A : Matrix (Fin m) (Fin c) ℝ) (b : Matrix (Fin m) (Fin r) ℝ) :
    ∃ y : Matrix (Fin m) (Fin r) ℝ, Aᵀ * (A * (Aᵀ * y)) = Aᵀ * b := by
  choose y hy using fun j => exists_lstsq_vec A (fun i => b i j)
  refine ⟨fun i j => y j i, ?_⟩
  ext i j
  have := congrFun (hy j) i
  exact this

open Classical in
/-- Exact linear algebra. -/
def exactLA : LinAlg where
  solve _ _ A b := if IsUnit A then some (A⁻¹ * b) else none
  lstsq _ _ _ A b := Aᵀ * (exists_lstsq A b).choose

theorem exactLA_sound : exactLA.Sound where
  solve_some := by
    intro m r A b x h
    unfold exactLA at h
    simp only at h
    split at h
    · rename_i hu
      cases h
      refine ⟨?_, hu⟩
      rw [← Matrix.mul_assoc, Matrix.mul_nonsing_inv _ ((Matrix.isUnit_iff_isUnit_det _).1 hu), Matrix.one_mul]
    · cases h
  solve_none := by
    intro m r A b h
    unfold exactLA at h
    simp only at h
    split at h
    · cases h
    · assumption
  lstsq_normal := fun A b => (exists_lstsq A b).choose_spec
  lstsq_row := fun A b => ⟨_, rfl⟩

variable {la : LinAlg}

theorem solveOr_isUnit (h : la.Sound) {m r : ℕ} (A : Matrix (Fin m) (Fin m) ℝ)
    (b : Matrix (Fin m) (Fin r) ℝ) (hA : IsUnit A) : solveOr la A b = A⁻¹ * b := by
  unfold solveOr
  cases hs : la.solve m r A b with
  | none => exact absurd hA (h.solve_none A b hs)
  | some x =>
    have := (h.solve_some A b x hs).1
    simp only
    rw [← this, ← Matrix.mul_assoc, Matrix.nonsing_inv_mul _ ((Matrix.isUnit_iff_isUnit_det _).1 hA),
      Matrix.one_mul]

/-- Whatever branch is taken, the answer is a least-squares solution. -/
theorem solveOr_normal (h : la.Sound) {m r : ℕ} (A : Matrix (Fin m) (Fin m) ℝ)
    (b : Matrix (Fin m) (Fin r) ℝ) : Aᵀ * (A * solveOr la A b) = Aᵀ * b := by
  unfold solveOr
  cases hs : la.solve m r A b with
  | none => exact h.lstsq_normal A b
  | some x => simp only; rw [(h.solve_some A b x hs).1]

/-- A least-squares solution of a solvable system solves it. -/
theorem normal_exact {m c r : ℕ} (A : Matrix (Fin m) (Fin c) ℝ) (b : Matrix (Fin m) (Fin r) ℝ)
    (x z : Matrix (Fin c) (Fin r) ℝ) (hn : Aᵀ * (A * x) = Aᵀ * b) (hz : A * z = b) : A * x = b := by
  have h0 : Aᵀ * (A * (x - z)) = 0 := by
    rw [Matrix.mul_sub, Matrix.mul_sub, hn, hz, sub_self]
  have h1 : A * (x - z) = 0 := by
    ext i j
    have h2 : (A *ᵥ (fun l => (x - z) l j)) ⬝ᵥ (A *ᵥ (fun l => (x - z) l j)) = 0 := by
      have h3 : Aᵀ *ᵥ (A *ᵥ (fun l => (x - z) l j)) = 0 := by
        funext l
        have := congrFun (congrFun h0 l) j
        exact this
      have h4 : (fun l => (x - z) l j) ⬝ᵥ (Aᵀ *ᵥ (A *ᵥ (fun l => (x - z) l j))) = 0 := by
        rw [h3, dotProduct_zero]
      rw [dotProduct_mulVec, vecMul_eq_tr, transpose_transpose] at h4
      exact h4
    have := congrFun (dotProduct_self_eq_zero.1 h2) i
    exact this
  rw [Matrix.mul_sub, hz, sub_eq_zero] at h1
  exact h1

theorem solveOr_exact (h : la.Sound) {m r : ℕ} (A : Matrix (Fin m) (Fin m) ℝ)
    (b z : Matrix (Fin m) (Fin r) ℝ) (hz : A * z = b) : A * solveOr la A b = b :=
  normal_exact A b _ z (solveOr_normal h A b) hz

theorem solveOr_zero (h : la.Sound) {m r : ℕ} (A : Matrix (Fin m) (Fin m) ℝ) :
    solveOr la A (0 : Matrix (Fin m) (Fin r) ℝ) = 0 := by
  unfold solveOr
  cases hs : la.solve m r A 0 with
  | some x =>
    simp only
    obtain ⟨h1, h2⟩ := h.solve_some A 0 x hs
    have : A⁻¹ * (A * x) = 0 := by rw [h1, Matrix.mul_zero]
    rwa [← Matrix.mul_assoc, Matrix.nonsing_inv_mul _ ((Matrix.isUnit_iff_isUnit_det _).1 h2),
      Matrix.one_mul] at this
  | none =>
    simp only
    have hn := h.lstsq_normal A (0 : Matrix (Fin m) (Fin r) ℝ)
    obtain ⟨y, hy⟩ := h.lstsq_row A (0 : Matrix (Fin m) (Fin r) ℝ)
    have h1 := normal_exact A 0 _ 0 hn (Matrix.mul_zero A)
    rw [hy] at h1 ⊢
    ext i j
    have h2 : (A * Aᵀ) *ᵥ (fun l => y l j) = 0 := by
      funext l
      have := congrFun (congrFun h1 l) j
      rw [← Matrix.mul_assoc] at this
      exact this
    have := congrFun (mulVec_self_transpose_zero A _ h2) i
    exact this

end Verif.BL
