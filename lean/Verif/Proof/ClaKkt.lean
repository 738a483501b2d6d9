import Verif.Spec.Cla
import Mathlib.Algebra.BigOperators.Fin
import Mathlib.Algebra.Order.BigOperators.Group.Finset
import Mathlib.Algebra.BigOperators.Ring.Finset
import Mathlib.Tactic.Linarith
import Mathlib.Tactic.NormNum
import Mathlib.Tactic.FieldSimp
import Mathlib.Tactic.Ring

/-! Sub-problem algebra: the computed weights solve the equality-constrained problem. -/

set_option linter.unusedSectionVars false

namespace Verif.Cla
open Verif.Py

variable {K : Type} [Field K] [LinearOrder K] [IsStrictOrderedRing K]
variable {n : ℕ}

theorem append_getB_perm (f : List (Fin n)) (hf : f.Nodup) : (f ++ getB f).Perm (List.finRange n) := by
  have hnd : (f ++ getB f).Nodup := by
    rw [List.nodup_append]
    refine ⟨hf, (List.nodup_finRange n).filter _, ?_⟩
    intro a ha b hb hab
    subst hab
    simp only [getB, List.mem_filter, decide_eq_true_eq] at hb
    exact hb.2 ha
  rw [List.perm_ext_iff_of_nodup hnd (List.nodup_finRange n)]
  intro a
  simp only [List.mem_append, getB, List.mem_filter, List.mem_finRange, true_and, decide_eq_true_eq, iff_true]
  exact em _

theorem sum_split (f : List (Fin n)) (hf : f.Nodup) (h : Fin n → K) :
    ∑ i, h i = ∑ a : Fin f.length, h (f.get a) + ((getB f).map h).sum := by
  have h1 : ∑ i, h i = ((List.finRange n).map h).sum := by
    rw [← List.ofFn_eq_map, List.sum_ofFn]
  have h2 : ((f ++ getB f).map h).sum = ((List.finRange n).map h).sum :=
    ((append_getB_perm f hf).map h).sum_eq
  have h3 : ∑ a : Fin f.length, h (f.get a) = (f.map h).sum := by
    rw [← List.sum_ofFn]
    congr 1
    apply List.ext_getElem
    · simp
    · intro i h1 h2
      simp
  rw [h1, ← h2, List.map_append, List.sum_append, h3]

theorem onesDot_eq {m : ℕ} (A : Matrix (Fin m) (Fin m) K) (v : Fin m → K) : onesDot A v = ∑ a, apply A v a := rfl

theorem apply_inverse {m : ℕ} (A B : Matrix (Fin m) (Fin m) K)
    (h : ∀ i j, ∑ k, A i k * B k j = if i = j then 1 else 0) (v : Fin m → K) (a : Fin m) :
    ∑ b, A a b * apply B v b = v a := by
  unfold apply
  calc ∑ b, A a b * ∑ c, B b c * v c = ∑ b, ∑ c, A a b * B b c * v c := by
        apply Finset.sum_congr rfl; intro b _; rw [Finset.mul_sum]
        apply Finset.sum_congr rfl; intro c _; ring
    _ = ∑ c, (∑ b, A a b * B b c) * v c := by
        rw [Finset.sum_comm]; apply Finset.sum_congr rfl; intro c _; rw [Finset.sum_mul]
    _ = v a := by simp [h]

/-- The gamma of `_compute_w`, uniformly in whether assets are bound. -/
def gammaOf (p : Problem n K) (f : List (Fin n)) (Finv : Matrix (Fin f.length) (Fin f.length) K)
    (meanF : Fin f.length → K) (wl : Fin n → K) (l : K) : K :=
  (-l * onesDot Finv meanF + (1 - ((getB f).map wl).sum + ∑ a, apply Finv (crossTerm p f wl) a)) /
    onesDot Finv (fun _ => 1)

theorem computeW_eq (p : Problem n K) (f : List (Fin n)) (Finv : Matrix (Fin f.length) (Fin f.length) K)
    (meanF : Fin f.length → K) (wl : Fin n → K) (l : K) :
    computeW p f Finv meanF wl l =
      (fun a => -(apply Finv (crossTerm p f wl) a) + gammaOf p f Finv meanF wl l * apply Finv (fun _ => 1) a +
        l * apply Finv meanF a, gammaOf p f Finv meanF wl l) := by
  unfold computeW gammaOf
  by_cases hB : getB f = []
  · have hc : crossTerm p f wl = fun _ => 0 := by funext a; simp [crossTerm, hB]
    have ha : ∀ a, apply Finv (fun _ => (0 : K)) a = 0 := by intro a; simp [apply]
    simp only [hB, if_true, hc, ha, List.map_nil, List.sum_nil, Finset.sum_const_zero]
    simp only [sub_zero, add_zero, add_div]
  · simp only [hB, if_false, add_div]

/-- First-order conditions and budget for any vector that carries the computed weights. -/
theorem computeW_kkt (p : Problem n K) (f : List (Fin n)) (hf : f.Nodup)
    (Finv : Matrix (Fin f.length) (Fin f.length) K)
    (hinv : ∀ i j, ∑ k, covF p f i k * Finv k j = if i = j then 1 else 0)
    (hg2 : onesDot Finv (fun _ => 1) ≠ 0) (meanF : Fin f.length → K)
    (wl : Fin n → K) (l : K) (W : Fin n → K)
    (hWf : ∀ a, W (f.get a) = (computeW p f Finv meanF wl l).1 a) (hWb : ∀ i, i ∉ f → W i = wl i) :
    ∑ i, W i = 1 ∧ ∀ a : Fin f.length, ∑ j, p.cov (f.get a) j * W j =
      (computeW p f Finv meanF wl l).2 + l * meanF a := by
  have hB : ∀ h : Fin n → K, ((getB f).map (fun i => h i * W i)).sum = ((getB f).map (fun i => h i * wl i)).sum := by
    intro h
    congr 1
    apply List.map_congr_left
    intro i hi
    simp only [getB, List.mem_filter, decide_eq_true_eq] at hi
    rw [hWb i hi.2]
  have hB1 : ((getB f).map W).sum = ((getB f).map wl).sum := by simpa using hB (fun _ => 1)
  rw [computeW_eq] at hWf ⊢
  simp only at hWf ⊢
  set g := gammaOf p f Finv meanF wl l with hg
  constructor
  · rw [sum_split f hf, hB1]
    simp only [hWf, Finset.sum_add_distrib, Finset.sum_neg_distrib, ← Finset.mul_sum, ← onesDot_eq]
    have : g * onesDot Finv (fun _ => 1) = -l * onesDot Finv meanF +
        (1 - ((getB f).map wl).sum + ∑ a, apply Finv (crossTerm p f wl) a) := by
      rw [hg, gammaOf, div_mul_cancel₀ _ hg2]
    rw [this, onesDot_eq Finv (crossTerm p f wl)]
    ring
  · intro a
    rw [sum_split f hf, hB (fun j => p.cov (f.get a) j)]
    have e : ∑ b : Fin f.length, p.cov (f.get a) (f.get b) * W (f.get b) =
        -(∑ b, covF p f a b * apply Finv (crossTerm p f wl) b)
        + g * (∑ b, covF p f a b * apply Finv (fun _ => 1) b) + l * ∑ b, covF p f a b * apply Finv meanF b := by
      rw [Finset.mul_sum, Finset.mul_sum, ← Finset.sum_neg_distrib, ← Finset.sum_add_distrib,
        ← Finset.sum_add_distrib]
      apply Finset.sum_congr rfl
      intro b _
      rw [hWf]
      simp only [covF]
      ring
    rw [e, apply_inverse _ _ hinv, apply_inverse _ _ hinv, apply_inverse _ _ hinv]
    simp only [crossTerm]
    ring

/-- Embedding of a vector on the free assets. -/
def embed (f : List (Fin n)) (v : Fin f.length → K) (i : Fin n) : K :=
  if h : i ∈ f then v ⟨f.idxOf i, List.idxOf_lt_length_iff.2 h⟩ else 0

theorem embed_get (f : List (Fin n)) (hf : f.Nodup) (v : Fin f.length → K) (a : Fin f.length) :
    embed f v (f.get a) = v a := by
  have hm : f.get a ∈ f := List.get_mem f a
  unfold embed
  rw [dif_pos hm]
  congr 1
  apply Fin.ext
  exact hf.idxOf_getElem a.1 a.2

theorem embed_not (f : List (Fin n)) (v : Fin f.length → K) (i : Fin n) (h : i ∉ f) : embed f v i = 0 := by
  unfold embed; rw [dif_neg h]

theorem getB_sum_zero (f : List (Fin n)) (h : Fin n → K) (hz : ∀ i, i ∉ f → h i = 0) :
    ((getB f).map h).sum = 0 := by
  apply List.sum_eq_zero
  intro x hx
  rw [List.mem_map] at hx
  obtain ⟨i, hi, rfl⟩ := hx
  simp only [getB, List.mem_filter, decide_eq_true_eq] at hi
  exact hz i hi.2

/-- The budget coefficient is positive for a positive definite covariance. -/
theorem onesDot_pos (p : Problem n K) (hpd : PosDef p) (f : List (Fin n)) (hf : f.Nodup) (hne : f ≠ [])
    (Finv : Matrix (Fin f.length) (Fin f.length) K)
    (hinv : ∀ i j, ∑ k, covF p f i k * Finv k j = if i = j then 1 else 0) :
    0 < onesDot Finv (fun _ => 1) := by
  set v := apply Finv (fun _ => (1 : K)) with hv
  have hAv : ∀ a, ∑ b, covF p f a b * v b = 1 := fun a => apply_inverse _ _ hinv (fun _ => 1) a
  have hrow : ∀ i : Fin n, ∑ j, p.cov i j * embed f v j = ∑ b : Fin f.length, p.cov i (f.get b) * v b := by
    intro i
    rw [sum_split f hf, getB_sum_zero f _ (fun j hj => by rw [embed_not f v j hj, mul_zero]), add_zero]
    simp only [embed_get f hf]
  have hvar : var p (embed f v) = ∑ a, v a := by
    unfold var
    rw [sum_split f hf, getB_sum_zero f _ (fun j hj => by rw [embed_not f v j hj, zero_mul]), add_zero]
    apply Finset.sum_congr rfl
    intro a _
    rw [embed_get f hf, hrow]
    have := hAv a
    simp only [covF] at this
    rw [this, mul_one]
  have hex : ∃ i, embed f v i ≠ 0 := by
    by_contra hc
    push Not at hc
    have hv0 : ∀ b, v b = 0 := fun b => by rw [← embed_get f hf v b]; exact hc _
    have hpos : 0 < f.length := List.length_pos_iff.2 hne
    have := hAv ⟨0, hpos⟩
    simp [hv0] at this
  have := hpd _ hex
  rw [hvar] at this
  exact this

theorem var_add (p : Problem n K) (hs : SymmCov p) (x d : Fin n → K) :
    var p (fun i => x i + d i) = var p x + 2 * ∑ i, d i * ∑ j, p.cov i j * x j + var p d := by
  have hswap : ∑ i, x i * ∑ j, p.cov i j * d j = ∑ i, d i * ∑ j, p.cov i j * x j := by
    simp only [Finset.mul_sum]
    rw [Finset.sum_comm]
    apply Finset.sum_congr rfl; intro i _
    apply Finset.sum_congr rfl; intro j _
    rw [hs j i]; ring
  unfold var
  have e : ∀ i, (x i + d i) * ∑ j, p.cov i j * (x j + d j) =
      x i * ∑ j, p.cov i j * x j + x i * ∑ j, p.cov i j * d j + d i * ∑ j, p.cov i j * x j
        + d i * ∑ j, p.cov i j * d j := by
    intro i
    have : ∑ j, p.cov i j * (x j + d j) = ∑ j, p.cov i j * x j + ∑ j, p.cov i j * d j := by
      rw [← Finset.sum_add_distrib]; apply Finset.sum_congr rfl; intro j _; ring
    rw [this]; ring
  simp only [e, Finset.sum_add_distrib, hswap]
  ring

theorem expRet_add (p : Problem n K) (x d : Fin n → K) :
    expRet p (fun i => x i + d i) = expRet p x + expRet p d := by
  simp only [expRet, mul_add, Finset.sum_add_distrib]

end Verif.Cla
