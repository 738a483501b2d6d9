import Verif.Proof.Psd
import Verif.Props.ReturnModels

/-! Helper results about the covariance estimators. -/

set_option linter.unusedSectionVars false

namespace Verif.Risk
open scoped Matrix
open Verif.Py Verif.Frames Verif.Returns

variable {ι κ : Type}

theorem allSome_some {n : ℕ} (V : Matrix (Fin n) (Fin n) ℝ) :
    allSome (fun i j => some (V i j)) = some V := by
  unfold allSome
  rw [if_pos (by intro i j; rfl)]
  rfl

theorem fixFrame_psd (E : Eigh) (method : String) (labels : List κ)
    (M : Matrix (Fin labels.length) (Fin labels.length) Cell)
    (V : Matrix (Fin labels.length) (Fin labels.length) ℝ) (hM : ∀ i j, M i j = some (V i j))
    (h : V.PosSemidef) : fixFrame E method labels M = .ok ⟨labels, V⟩ := by
  have : M = fun i j => some (V i j) := by funext i j; exact hM i j
  unfold fixFrame
  rw [this, allSome_some]
  simp only
  rw [fixPsd_of_psd E method h]
  rfl

theorem upperPairs_mem {n : ℕ} {p : Fin n × Fin n} : p ∈ upperPairs n ↔ p.1 ≤ p.2 := by
  unfold upperPairs
  simp only [List.mem_flatMap, List.mem_finRange, true_and, List.mem_map, List.mem_filter,
    decide_eq_true_eq]
  constructor
  · rintro ⟨i, j, h, rfl⟩; exact h
  · intro h; exact ⟨p.1, p.2, h, rfl⟩

/-- The loop over any list of pairs leaves the value of the pair in both cells. -/
theorem expLoop_spec (span : ℝ) {n : ℕ} (col : Fin n → List Cell) (v : Fin n → Fin n → Cell)
    (hv : ∀ i j, v i j = v j i) (l : List (Fin n × Fin n))
    (hl : ∀ p ∈ l, pairExpCov span (col p.1) (col p.2) = .ok (v p.1 p.2))
    (S : Matrix (Fin n) (Fin n) Cell) :
    ∃ S', expLoop span col l S = .ok S' ∧
      ∀ a b, S' a b = if (a, b) ∈ l ∨ (b, a) ∈ l then v a b else S a b := by
  induction l generalizing S with
  | nil => exact ⟨S, rfl, by simp⟩
  | cons p l ih =>
    obtain ⟨S', h1, h2⟩ := ih (fun q hq => hl q (by simp [hq])) (setBoth S p.1 p.2 (v p.1 p.2))
    refine ⟨S', ?_, ?_⟩
    · unfold expLoop at h1 ⊢
      rw [List.foldlM_cons, hl p (by simp)]
      exact h1
    · intro a b
      rw [h2 a b]
      by_cases hm : (a, b) ∈ l ∨ (b, a) ∈ l
      · rw [if_pos hm, if_pos (by rcases hm with h | h <;> simp [h])]
      · rw [if_neg hm]
        unfold setBoth
        simp only [Matrix.of_apply]
        by_cases hp : (a = p.1 ∧ b = p.2) ∨ (a = p.2 ∧ b = p.1)
        · rw [if_pos hp]
          rcases hp with ⟨rfl, rfl⟩ | ⟨rfl, rfl⟩
          · rw [if_pos (by simp)]
          · rw [if_pos (by simp), hv]
        · rw [if_neg hp, if_neg]
          simp only [List.mem_cons]
          rintro ((h | h) | (h | h))
          · exact hp (Or.inl ⟨congrArg Prod.fst h, congrArg Prod.snd h⟩)
          · exact hm (Or.inl h)
          · exact hp (Or.inr ⟨congrArg Prod.snd h, congrArg Prod.fst h⟩)
          · exact hm (Or.inr h)

theorem column_length (rows : List (ι × List ℝ)) (j : ℕ) : (column rows j).length = rows.length := by
  simp [column]

/-- The covariation series of two complete columns. -/
theorem covariation_some (x y : List ℝ) (hx : x ≠ []) (hl : x.length = y.length) :
    List.zipWith (fun a b => cellMul (cellSub a (Frames.mean (x.map some)))
        (cellSub b (Frames.mean (y.map some)))) (x.map some) (y.map some) =
      (List.zipWith (fun a b => (a - avg x) * (b - avg y)) x y).map some := by
  have hy : y ≠ [] := by
    intro h; rw [h] at hl; exact hx (List.length_eq_zero_iff.1 hl)
  rw [mean_some x hx, mean_some y hy, List.zipWith_map, List.map_zipWith]
  rfl

theorem zipWith_zip_sum {α : Type} (w : List ℝ) (rows : List α) (f : α → ℝ) :
    (List.zipWith (· * ·) w (rows.map f)).sum =
      ((w.zip rows).map (fun p => p.1 * f p.2)).sum := by
  rw [List.zipWith_map_right, List.map_zip_eq_zipWith]
  rfl

end Verif.Risk
