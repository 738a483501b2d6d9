import Verif.Proof.LinAlg
import Mathlib.Algebra.Order.Star.Real
import Mathlib.Tactic.Ring
import Mathlib.Tactic.Abel
import Mathlib.Tactic.NoncommRing

/-! Caches and the Woodbury identity for the Black-Litterman model. -/

set_option linter.unusedSectionVars false
noncomputable section

namespace Verif.BL
open Verif.Py Verif.Base Verif.Perf Matrix

variable {κ : Type} [DecidableEq κ] {n k : ℕ}

/-- `τ S P'`. -/
def tsp (x : Inputs κ n k) : Matrix (Fin n) (Fin k) ℝ := (x.tau • x.cov) * x.Pᵀ

/-- `P τ S P' + Ω`. -/
def amat (x : Inputs κ n k) : Matrix (Fin k) (Fin k) ℝ := x.P * tsp x + x.omega

/-- The caches are empty or hold what they are meant to hold. -/
structure Coherent (la : LinAlg) (x : Inputs κ n k) (s : State n k) : Prop where
  t : s.tauSigmaP = none ∨ s.tauSigmaP = some (tsp x)
  a : s.A = none ∨ s.A = some (amat x)
  r : s.posteriorRets = none ∨ s.posteriorRets = some (blReturns la x {}).2
  c : s.posteriorCov = none ∨ s.posteriorCov = some (blCov la x {}).2

variable {la : LinAlg} {x : Inputs κ n k} {s : State n k}

theorem coherent_init (la : LinAlg) (x : Inputs κ n k) : Coherent la x ({} : State n k) :=
  ⟨.inl rfl, .inl rfl, .inl rfl, .inl rfl⟩

theorem getTSP_eq (h : Coherent la x s) : getTSP x s = tsp x := by
  unfold getTSP
  rcases h.t with h | h <;> simp only [h] <;> rfl

theorem getA_eq (h : Coherent la x s) : getA x s = amat x := by
  unfold getA
  rw [getTSP_eq h]
  rcases h.a with h | h <;> simp only [h] <;> rfl

theorem blReturns_eq (h : Coherent la x s) : (blReturns la x s).2 = (blReturns la x {}).2 := by
  simp only [blReturns, getA_eq h, getTSP_eq h, getA_eq (coherent_init la x), getTSP_eq (coherent_init la x)]

theorem blCov_eq (h : Coherent la x s) : (blCov la x s).2 = (blCov la x {}).2 := by
  simp only [blCov, getA_eq h, getTSP_eq h, getA_eq (coherent_init la x), getTSP_eq (coherent_init la x)]

theorem fill_coherent (h : Coherent la x s) : Coherent la x (fill x s) :=
  ⟨.inr (by simp [fill, getTSP_eq h]), .inr (by simp [fill, getA_eq h]), h.r, h.c⟩

theorem step_coherent (natKey : ℕ → κ) (h : Coherent la x s) (c : Call n) :
    Coherent la x (step la natKey x s c) := by
  have hf := fill_coherent h
  cases c with
  | returns => exact hf
  | cov => exact hf
  | weights ra =>
    simp only [step, blWeights]
    have h1 : Coherent la x { (blReturns la x s).1 with posteriorRets := some (blReturns la x s).2 } :=
      ⟨hf.t, hf.a, .inr (by rw [blReturns_eq h]), hf.c⟩
    split
    · exact h1
    · exact ⟨h1.t, h1.a, h1.r, h1.c⟩
  | performance rf =>
    simp only [step, performance, ensureCov]
    split
    · exact h
    · exact ⟨hf.t, hf.a, hf.r, .inr (by rw [blCov_eq h])⟩
  | setWeights w => exact ⟨h.t, h.a, h.r, h.c⟩

theorem run_coherent (la : LinAlg) (natKey : ℕ → κ) (x : Inputs κ n k) (cs : List (Call n)) :
    Coherent la x (run la natKey x cs) := by
  have : ∀ (cs : List (Call n)) (s : State n k), Coherent la x s →
      Coherent la x (cs.foldl (step la natKey x) s) := by
    intro cs
    induction cs with
    | nil => intro s h; exact h
    | cons c cs ih => intro s h; exact ih _ (step_coherent natKey h c)
  exact this cs _ (coherent_init la x)

/-! ### Matrix facts -/

theorem unit_mul_inv {m : ℕ} {A : Matrix (Fin m) (Fin m) ℝ} (h : IsUnit A) : A * A⁻¹ = 1 :=
  Matrix.mul_nonsing_inv _ ((Matrix.isUnit_iff_isUnit_det _).1 h)

theorem unit_inv_mul {m : ℕ} {A : Matrix (Fin m) (Fin m) ℝ} (h : IsUnit A) : A⁻¹ * A = 1 :=
  Matrix.nonsing_inv_mul _ ((Matrix.isUnit_iff_isUnit_det _).1 h)

theorem psd_conj {S : Matrix (Fin n) (Fin n) ℝ} (hS : S.PosSemidef) (P : Matrix (Fin k) (Fin n) ℝ) :
    (P * S * Pᵀ).PosSemidef := by
  have := hS.mul_mul_conjTranspose_same P
  rwa [conjTranspose_eq_transpose_of_trivial] at this

theorem psd_conj' {S : Matrix (Fin k) (Fin k) ℝ} (hS : S.PosSemidef) (P : Matrix (Fin k) (Fin n) ℝ) :
    (Pᵀ * S * P).PosSemidef := by
  have := hS.conjTranspose_mul_mul_same P
  rwa [conjTranspose_eq_transpose_of_trivial] at this

theorem amat_eq (x : Inputs κ n k) : amat x = x.P * (x.tau • x.cov) * x.Pᵀ + x.omega := by
  rw [amat, tsp, Matrix.mul_assoc]

theorem amat_posDef (hS : x.cov.PosDef) (hO : x.omega.PosDef) (hτ : 0 < x.tau) : (amat x).PosDef := by
  rw [amat_eq]
  exact PosDef.posSemidef_add (psd_conj (hS.smul hτ).posSemidef x.P) hO

/-- The posterior precision. -/
def prec (x : Inputs κ n k) : Matrix (Fin n) (Fin n) ℝ :=
  (x.tau • x.cov)⁻¹ + x.Pᵀ * x.omega⁻¹ * x.P

theorem prec_posDef (hS : x.cov.PosDef) (hO : x.omega.PosDef) (hτ : 0 < x.tau) : (prec x).PosDef :=
  PosDef.add_posSemidef (hS.smul hτ).inv (psd_conj' hO.inv.posSemidef x.P)

/-- `prec * (τS P' A⁻¹) = P' Ω⁻¹`. -/
theorem prec_mul_tsp (hS : IsUnit (x.tau • x.cov)) (hO : IsUnit x.omega) (hA : IsUnit (amat x)) :
    prec x * (tsp x * (amat x)⁻¹) = x.Pᵀ * x.omega⁻¹ := by
  have h1 : prec x * tsp x = x.Pᵀ * x.omega⁻¹ * amat x := by
    rw [prec, amat, tsp, Matrix.add_mul, ← Matrix.mul_assoc, unit_inv_mul hS, Matrix.one_mul,
      Matrix.mul_add, Matrix.mul_assoc (x.Pᵀ) x.omega⁻¹ x.omega, unit_inv_mul hO, Matrix.mul_one,
      Matrix.mul_assoc (x.Pᵀ * x.omega⁻¹) x.P, add_comm]
  rw [← Matrix.mul_assoc, h1, Matrix.mul_assoc, unit_mul_inv hA, Matrix.mul_one]

/-- Woodbury: `prec * (τS - τS P' A⁻¹ P τS) = 1`. -/
theorem prec_mul_M (hS : IsUnit (x.tau • x.cov)) (hO : IsUnit x.omega) (hA : IsUnit (amat x)) :
    prec x * (x.tau • x.cov - tsp x * ((amat x)⁻¹ * (x.P * (x.tau • x.cov)))) = 1 := by
  rw [Matrix.mul_sub, ← Matrix.mul_assoc (tsp x), ← Matrix.mul_assoc (prec x), prec_mul_tsp hS hO hA, prec,
    Matrix.add_mul, unit_inv_mul hS, Matrix.mul_assoc (x.Pᵀ * x.omega⁻¹), add_sub_cancel_right]

theorem tsp_transpose (hs : x.covᵀ = x.cov) : (tsp x)ᵀ = x.P * (x.tau • x.cov) := by
  rw [tsp, transpose_mul, transpose_transpose, transpose_smul, hs]

theorem symm_of_posDef {S : Matrix (Fin n) (Fin n) ℝ} (h : S.PosDef) : Sᵀ = S := by
  have := h.isHermitian
  rwa [IsHermitian, conjTranspose_eq_transpose_of_trivial] at this

theorem symm_of_posSemidef {S : Matrix (Fin n) (Fin n) ℝ} (h : S.PosSemidef) : Sᵀ = S := by
  have := h.isHermitian
  rwa [IsHermitian, conjTranspose_eq_transpose_of_trivial] at this

end Verif.BL
