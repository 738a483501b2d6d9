import Verif.Proof.Psd

/-! Property theorems C34 and C60: repairing covariance matrices. -/

set_option linter.unusedSectionVars false

namespace Verif.Risk
open scoped Matrix
open Verif.Py

variable {n : ℕ}

/-- Smallest value of the quadratic form allowed by the test tolerance. -/
def NearlyPsd (R : Matrix (Fin n) (Fin n) ℝ) : Prop :=
  Rᵀ = R ∧ ∀ x : Fin n → ℝ, -1e-16 * (x ⬝ᵥ x) ≤ x ⬝ᵥ R *ᵥ x

theorem nearly_of_psd {R : Matrix (Fin n) (Fin n) ℝ} (h : R.PosSemidef) : NearlyPsd R := by
  refine ⟨psd_symm h, fun x => ?_⟩
  have h1 := psd_nonneg h x
  have h2 : 0 ≤ x ⬝ᵥ x := Finset.sum_nonneg (fun i _ => mul_self_nonneg (x i))
  nlinarith

/-- The eigenvalues when the test fails: one of them is negative. -/
theorem exists_neg_eig {E : Eigh} (hE : E.Sound) (M : Matrix (Fin n) (Fin n) ℝ) (hs : Mᵀ = M)
    (h : isPsd M = false) : ∃ i, (E.run M).1 i < 0 := by
  by_contra hc
  simp only [not_exists, not_lt] at hc
  have hd := hE.decomp M
  rw [lowerSym_eq M hs] at hd
  have : M.PosSemidef := by rw [hd]; exact psd_conj _ _ hc
  rw [isPsd_of_psd this] at h
  exact Bool.noConfusion h

/-- The diagonal repair in eigencoordinates. -/
theorem diag_eq {E : Eigh} (hE : E.Sound) (M : Matrix (Fin n) (Fin n) ℝ) (hs : Mᵀ = M) (c : ℝ) :
    M - c • (1 : Matrix (Fin n) (Fin n) ℝ) =
      (E.run M).2 * Matrix.diagonal (fun i => (E.run M).1 i - c) * (E.run M).2ᵀ := by
  have hd := hE.decomp M
  rw [lowerSym_eq M hs] at hd
  have e : Matrix.diagonal (fun i => (E.run M).1 i - c) =
      Matrix.diagonal (E.run M).1 - c • (1 : Matrix (Fin n) (Fin n) ℝ) := by
    ext i j
    by_cases hij : i = j
    · subst hij; simp
    · simp [Matrix.diagonal_apply_ne _ hij, Matrix.one_apply_ne hij]
  rw [e, Matrix.mul_sub, Matrix.sub_mul, ← hd, Matrix.mul_smul, Matrix.mul_one, Matrix.smul_mul,
    hE.orth]

/-- C34.  For every symmetric matrix and either method the result is symmetric and positive
semidefinite up to the tolerance of the test; it is exactly positive semidefinite whenever the matrix
was changed, and a matrix passing the test — in particular every positive semidefinite one — is
returned as it is.  An unknown method is rejected when the matrix needs repair.  Missing: an unknown
method is accepted silently for a matrix passing the test, see `C34_unknown_method_false`. -/
theorem C34_fix_partial {E : Eigh} (hE : E.Sound) (M : Matrix (Fin n) (Fin n) ℝ) (hs : Mᵀ = M) :
    (∀ method ∈ ["spectral", "diag"], ∃ R, fixPsd E method M = .ok R ∧ NearlyPsd R ∧
      (R = M ∨ R.PosSemidef)) ∧
    ((M + (1e-16 : ℝ) • (1 : Matrix (Fin n) (Fin n) ℝ)).PosDef → ∀ method, fixPsd E method M = .ok M) ∧
    (M.PosSemidef → ∀ method, fixPsd E method M = .ok M) ∧
    (¬ (M + (1e-16 : ℝ) • (1 : Matrix (Fin n) (Fin n) ℝ)).PosDef → ∀ method ∉ ["spectral", "diag"],
      fixPsd E method M = .error .notImplemented) := by
  refine ⟨?_, ?_, fun h method => fixPsd_of_psd E method h, ?_⟩
  · intro method hm
    by_cases hp : isPsd M = true
    · refine ⟨M, by unfold fixPsd; rw [if_pos hp], ⟨hs, fun x => ?_⟩, Or.inl rfl⟩
      have := psd_nonneg ((isPsd_iff M hs).1 hp).posSemidef x
      rw [Matrix.add_mulVec, dotProduct_add, Matrix.smul_mulVec, Matrix.one_mulVec, dotProduct_smul,
        smul_eq_mul] at this
      linarith
    · obtain ⟨i, hi⟩ := exists_neg_eig hE M hs (by simpa using hp)
      simp only [List.mem_cons, List.not_mem_nil, or_false] at hm
      have key : ∀ R, fixPsd E method M = .ok R → R.PosSemidef →
          ∃ R, fixPsd E method M = .ok R ∧ NearlyPsd R ∧ (R = M ∨ R.PosSemidef) :=
        fun R h h' => ⟨R, h, nearly_of_psd h', Or.inr h'⟩
      rcases hm with rfl | rfl
      · refine key _ (by unfold fixPsd; rw [if_neg hp]; exact if_pos rfl) ?_
        apply psd_conj
        intro i
        split
        · next h => exact h.le
        · exact le_rfl
      · refine key _ (by unfold fixPsd; rw [if_neg hp]; dsimp only; rw [if_neg (by decide)]; exact if_pos rfl) ?_
        rw [diag_eq hE M hs]
        apply psd_conj
        intro j
        have h1 : iInf (E.run M).1 ≤ (E.run M).1 j := ciInf_le (Set.finite_range _).bddBelow j
        have h2 : iInf (E.run M).1 ≤ (E.run M).1 i := ciInf_le (Set.finite_range _).bddBelow i
        linarith
  · intro h method
    unfold fixPsd
    rw [if_pos ((isPsd_iff M hs).2 h)]
  · intro h method hm
    have hp : ¬ isPsd M = true := fun hp => h ((isPsd_iff M hs).1 hp)
    simp only [List.mem_cons, List.not_mem_nil, or_false, not_or] at hm
    unfold fixPsd
    rw [if_neg hp]
    simp only
    rw [if_neg hm.1, if_neg hm.2]

/-- The last clause of C34 fails: with a matrix that passes the test any method name is accepted. -/
theorem C34_unknown_method_false (E : Eigh) :
    fixPsd E "no such method" (1 : Matrix (Fin 2) (Fin 2) ℝ) = .ok 1 :=
  fixPsd_of_psd E _ Matrix.PosSemidef.one

/-- A symmetric matrix that needs repair, with both methods. -/
example : ∃ R, fixPsd exactEigh "spectral" !![1, 2; 2, (1 : ℝ)] = .ok R ∧ R.PosSemidef := by
  obtain ⟨R, h1, h2, h3⟩ := (C34_fix_partial exactEigh_sound !![1, 2; 2, (1 : ℝ)]
    (by ext i j; fin_cases i <;> fin_cases j <;> rfl)).1 "spectral" (by simp)
  refine ⟨R, h1, h3.resolve_left ?_⟩
  rintro rfl
  have := h2.2 ![1, -1]
  norm_num [Matrix.mulVec, dotProduct, Fin.sum_univ_two] at this

/-- A matrix that is not symmetric is judged by its lower triangle only. -/
theorem asymmetric_accepted (E : Eigh) : fixPsd E "spectral" !![1, 5; 0, (1 : ℝ)] = .ok !![1, 5; 0, 1] := by
  have h : isPsd !![1, 5; 0, (1 : ℝ)] = true := by
    have e : lowerSym (!![1, 5; 0, (1 : ℝ)] + (1e-16 : ℝ) • (1 : Matrix (Fin 2) (Fin 2) ℝ)) =
        ((1 + 1e-16 : ℝ)) • (1 : Matrix (Fin 2) (Fin 2) ℝ) := by
      ext i j
      fin_cases i <;> fin_cases j <;> norm_num [lowerSym]
    unfold isPsd
    rw [e]
    exact @decide_eq_true _ (Classical.propDecidable _) (Matrix.PosDef.one.smul (by norm_num))
  unfold fixPsd
  rw [if_pos h]

/-! ### The spectral repair is the closest one -/

/-- Squared Frobenius distance. -/
def frobSq (A B : Matrix (Fin n) (Fin n) ℝ) : ℝ := ∑ i, ∑ j, (A i j - B i j) ^ 2

/-- Frobenius inner product. -/
theorem trace_inner (A B : Matrix (Fin n) (Fin n) ℝ) :
    (Aᵀ * B).trace = ∑ i, ∑ j, A i j * B i j := by
  simp only [Matrix.trace, Matrix.diag_apply, Matrix.mul_apply, Matrix.transpose_apply]
  exact Finset.sum_comm

theorem inner_psd_conj {X : Matrix (Fin n) (Fin n) ℝ} (hX : X.PosSemidef)
    (V : Matrix (Fin n) (Fin n) ℝ) (q : Fin n → ℝ) (hq : ∀ i, 0 ≤ q i) :
    0 ≤ ∑ i, ∑ j, X i j * (V * Matrix.diagonal q * Vᵀ) i j := by
  rw [← trace_inner, psd_symm hX, ← Matrix.mul_assoc, Matrix.trace_mul_comm, ← Matrix.mul_assoc,
    ← Matrix.mul_assoc]
  have h : (Vᵀ * X * V).PosSemidef := by
    have := hX.conjTranspose_mul_mul_same V
    rwa [Matrix.conjTranspose_eq_transpose_of_trivial] at this
  simp only [Matrix.trace, Matrix.diag_apply, Matrix.mul_diagonal]
  exact Finset.sum_nonneg (fun i _ => mul_nonneg h.diag_nonneg (hq i))

/-- C60.  For a symmetric matrix that needs repair the spectral method returns a positive
semidefinite matrix at least as close, in the Frobenius norm, as any other positive semidefinite
matrix; repairing twice changes nothing more. -/
theorem C60_spectral_nearest {E : Eigh} (hE : E.Sound) (M : Matrix (Fin n) (Fin n) ℝ) (hs : Mᵀ = M)
    (hneed : ¬ (M + (1e-16 : ℝ) • (1 : Matrix (Fin n) (Fin n) ℝ)).PosDef) :
    ∃ R, fixPsd E "spectral" M = .ok R ∧ R.PosSemidef ∧
      (∀ X : Matrix (Fin n) (Fin n) ℝ, X.PosSemidef → frobSq R M ≤ frobSq X M) ∧
      ∀ method, fixPsd E method R = .ok R := by
  have hp : ¬ isPsd M = true := fun hp => hneed ((isPsd_iff M hs).1 hp)
  set V := (E.run M).2
  set q := (E.run M).1
  set R := V * Matrix.diagonal (fun i => if 0 < q i then q i else 0) * Vᵀ with hR
  have hfix : fixPsd E "spectral" M = .ok R := by
    unfold fixPsd; rw [if_neg hp]; exact if_pos rfl
  have hpsd : R.PosSemidef := by
    apply psd_conj
    intro i
    split
    · next h => exact h.le
    · exact le_rfl
  refine ⟨R, hfix, hpsd, ?_, fun method => fixPsd_of_psd E method hpsd⟩
  set N := V * Matrix.diagonal (fun i => if 0 < q i then 0 else -q i) * Vᵀ with hN
  have hd := hE.decomp M
  rw [lowerSym_eq M hs] at hd
  have hM : M = R - N := by
    rw [hd, hR, hN, ← Matrix.sub_mul, ← Matrix.mul_sub]
    congr 2
    ext i j
    by_cases hij : i = j
    · subst hij
      simp only [Matrix.diagonal_apply_eq, Matrix.sub_apply]
      split <;> ring
    · simp [Matrix.diagonal_apply_ne _ hij]
  have hVV : Vᵀ * V = 1 := mul_eq_one_comm.1 (hE.orth M)
  have hRN : ∑ i, ∑ j, R i j * N i j = 0 := by
    rw [← trace_inner, psd_symm hpsd]
    have e : R * N = V * (Matrix.diagonal (fun i => if 0 < q i then q i else 0) *
        Matrix.diagonal (fun i => if 0 < q i then 0 else -q i)) * Vᵀ := by
      calc R * N = V * Matrix.diagonal (fun i => if 0 < q i then q i else 0) * (Vᵀ * V) *
            Matrix.diagonal (fun i => if 0 < q i then 0 else -q i) * Vᵀ := by
              rw [hR, hN]; simp only [Matrix.mul_assoc]
        _ = _ := by rw [hVV, Matrix.mul_one]; simp only [Matrix.mul_assoc]
    have z : Matrix.diagonal (fun i => if 0 < q i then q i else 0) *
        Matrix.diagonal (fun i => if 0 < q i then 0 else -q i) = 0 := by
      rw [Matrix.diagonal_mul_diagonal]
      ext i j
      by_cases hij : i = j
      · subst hij
        simp only [Matrix.diagonal_apply_eq, Matrix.zero_apply]
        split <;> simp
      · simp [Matrix.diagonal_apply_ne _ hij]
    rw [e, z, Matrix.mul_zero, Matrix.zero_mul, Matrix.trace_zero]
  intro X hX
  have hXN : 0 ≤ ∑ i, ∑ j, X i j * N i j := by
    apply inner_psd_conj hX
    intro i
    split
    · exact le_rfl
    · next h => linarith
  have e1 : frobSq R M = ∑ i, ∑ j, N i j ^ 2 := by
    unfold frobSq
    rw [hM]
    simp
  have e2 : frobSq X M = ∑ i, ∑ j, (X i j - R i j) ^ 2 + 2 * ∑ i, ∑ j, X i j * N i j -
      2 * ∑ i, ∑ j, R i j * N i j + ∑ i, ∑ j, N i j ^ 2 := by
    unfold frobSq
    simp only [Finset.mul_sum, ← Finset.sum_add_distrib, ← Finset.sum_sub_distrib]
    refine Finset.sum_congr rfl (fun i _ => Finset.sum_congr rfl (fun j _ => ?_))
    rw [hM, Matrix.sub_apply]
    ring
  rw [e1, e2, hRN]
  have : 0 ≤ ∑ i, ∑ j, (X i j - R i j) ^ 2 :=
    Finset.sum_nonneg (fun i _ => Finset.sum_nonneg (fun j _ => sq_nonneg _))
  linarith

/-- The hypothesis of C60 is met. -/
example : ¬ (!![1, 2; 2, (1 : ℝ)] + (1e-16 : ℝ) • (1 : Matrix (Fin 2) (Fin 2) ℝ)).PosDef := by
  intro h
  have := psd_nonneg h.posSemidef ![1, -1]
  norm_num [Matrix.mulVec, dotProduct, Fin.sum_univ_two, Matrix.one_apply] at this

end Verif.Risk
