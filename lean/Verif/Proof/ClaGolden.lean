import Verif.Spec.Cla
import Mathlib.Algebra.Order.BigOperators.Group.Finset
import Mathlib.Algebra.Order.BigOperators.Ring.Finset
import Mathlib.Algebra.BigOperators.Ring.Finset
import Mathlib.Tactic.Linarith
import Mathlib.Tactic.NormNum
import Mathlib.Tactic.Ring

/-! The line search and the convex combinations built from it. -/

set_option linter.unusedSectionVars false

namespace Verif.Cla
open Verif.Py

variable {K : Type} [Field K] [LinearOrder K] [IsStrictOrderedRing K]
variable {n : ℕ}

theorem combo_mem (r x y lo hi : K) (h0 : 0 ≤ r) (h1 : r ≤ 1) (hx : lo ≤ x ∧ x ≤ hi)
    (hy : lo ≤ y ∧ y ≤ hi) : lo ≤ r * x + (1 - r) * y ∧ r * x + (1 - r) * y ≤ hi := by
  have e1 := mul_nonneg h0 (sub_nonneg.2 hx.1)
  have e2 := mul_nonneg (sub_nonneg.2 h1) (sub_nonneg.2 hy.1)
  have e3 := mul_nonneg h0 (sub_nonneg.2 hx.2)
  have e4 := mul_nonneg (sub_nonneg.2 h1) (sub_nonneg.2 hy.2)
  constructor <;> nlinarith

/-- The search never leaves its interval and reports a value of the objective. -/
theorem golden_mem (r : K) (f : K → K) (h0 : 0 ≤ r) (h1 : r ≤ 1) (lo hi : K) : ∀ (k : ℕ) (a b x1 x2 : K),
    (lo ≤ a ∧ a ≤ hi) → (lo ≤ b ∧ b ≤ hi) → (lo ≤ x1 ∧ x1 ≤ hi) → (lo ≤ x2 ∧ x2 ≤ hi) →
    (lo ≤ (golden r f k a b x1 x2 (f x1) (f x2)).1 ∧ (golden r f k a b x1 x2 (f x1) (f x2)).1 ≤ hi) ∧
      (golden r f k a b x1 x2 (f x1) (f x2)).2 = f (golden r f k a b x1 x2 (f x1) (f x2)).1 := by
  intro k
  induction k with
  | zero =>
    intro a b x1 x2 _ _ h3 h4
    rw [golden]
    split
    · exact ⟨h3, rfl⟩
    · exact ⟨h4, rfl⟩
  | succ k ih =>
    intro a b x1 x2 ha hb h3 h4
    rw [golden]
    split
    · refine ih x1 b x2 _ h3 hb h4 ?_
      have := combo_mem r b x1 lo hi h0 h1 hb h3
      rwa [add_comm] at this
    · exact ih a x2 _ x1 ha h4 (combo_mem r a x2 lo hi h0 h1 ha h4) h3

theorem goldenMax_mem (obj : K → K) :
    0 ≤ (goldenMax obj).1 ∧ (goldenMax obj).1 ≤ 1 ∧ (goldenMax obj).2 = obj (goldenMax obj).1 := by
  have h := golden_mem (618033989 / 1000000000 : K) (fun x => -obj x) (by norm_num) (by norm_num) 0 1 44 0 1
    (618033989 / 1000000000 * 0 + (1 - 618033989 / 1000000000) * 1)
    ((1 - 618033989 / 1000000000) * 0 + 618033989 / 1000000000 * 1)
    (by norm_num) (by norm_num) (by norm_num) (by norm_num)
  obtain ⟨⟨h1, h2⟩, h3⟩ := h
  exact ⟨h1, h2, by unfold goldenMax; simp only; rw [h3, neg_neg]⟩

theorem mix_near (p : Problem n K) (tol a : K) (w0 w1 : Fin n → K) (h0 : 0 ≤ a) (h1 : a ≤ 1)
    (hw0 : Near p tol w0) (hw1 : Near p tol w1) : Near p tol (mix a w0 w1) := by
  constructor
  · have e : ∑ i, mix a w0 w1 i - 1 = a * (∑ i, w0 i - 1) + (1 - a) * (∑ i, w1 i - 1) := by
      simp only [mix, Finset.sum_add_distrib, ← Finset.mul_sum]
      ring
    rw [e, abs_le]
    exact combo_mem a _ _ _ _ h0 h1 (abs_le.1 hw0.1) (abs_le.1 hw1.1)
  · intro i
    exact combo_mem a _ _ _ _ h0 h1 (hw0.2 i) (hw1.2 i)

/-- Two consecutive elements of a list. -/
def Adjacent {α : Type} (l : List α) (x y : α) : Prop := ∃ a b, l = a ++ x :: y :: b

theorem Adjacent.cons {α : Type} {l : List α} {x y z : α} (h : Adjacent l x y) : Adjacent (z :: l) x y := by
  obtain ⟨a, b, rfl⟩ := h
  exact ⟨z :: a, b, rfl⟩

theorem Adjacent.mem {α : Type} {l : List α} {x y : α} (h : Adjacent l x y) : x ∈ l ∧ y ∈ l := by
  obtain ⟨a, b, rfl⟩ := h
  simp

theorem srCandidates_mem (sharpe : (Fin n → K) → K) : ∀ (l : List (Fin n → K)) c,
    c ∈ srCandidates sharpe l →
    ∃ w0 w1 a, Adjacent l w0 w1 ∧ 0 ≤ a ∧ a ≤ 1 ∧ c.1 = mix a w0 w1 ∧ c.2 = sharpe c.1 := by
  intro l
  induction l with
  | nil => intro c hc; simp [srCandidates] at hc
  | cons w0 l ih =>
    intro c hc
    rcases l with _ | ⟨w1, rest⟩
    · simp [srCandidates] at hc
    · rw [srCandidates, List.mem_cons] at hc
      rcases hc with rfl | hc
      · obtain ⟨h0, h1, h2⟩ := goldenMax_mem (fun a => sharpe (mix a w0 w1))
        exact ⟨w0, w1, _, ⟨[], rest, rfl⟩, h0, h1, rfl, h2⟩
      · obtain ⟨v0, v1, a, hadj, h⟩ := ih c hc
        exact ⟨v0, v1, a, hadj.cons, h⟩

theorem pickBest_spec {α : Type} (better : K → K → Bool)
    (hirr : ∀ a, better a a = false)
    (hasym : ∀ a b c, better a b = true → better c b = false → better c a = false)
    (l : List (α × K)) (x : α) (h : pickBest better l = .ok x) :
    ∃ v, (x, v) ∈ l ∧ ∀ c ∈ l, better c.2 v = false := by
  rcases l with _ | ⟨c, cs⟩
  · cases h
  rw [pickBest] at h
  cases h
  have key : ∀ (cs : List (α × K)) (b0 : α × K) (seen : List (α × K)), b0 ∈ seen →
      (∀ c ∈ seen, better c.2 b0.2 = false) →
      (cs.foldl (fun best c => if better c.2 best.2 then c else best) b0) ∈ seen ++ cs ∧
      ∀ c ∈ seen ++ cs, better c.2 (cs.foldl (fun best c => if better c.2 best.2 then c else best) b0).2 = false := by
    intro cs
    induction cs with
    | nil => intro b0 seen hm hs; simp only [List.foldl_nil, List.append_nil]; exact ⟨hm, hs⟩
    | cons d ds ih =>
      intro b0 seen hm hs
      rw [List.foldl_cons]
      by_cases hb : better d.2 b0.2 = true
      · rw [if_pos hb]
        have := ih d (seen ++ [d]) (by simp) (by
          intro c hc
          rw [List.mem_append, List.mem_singleton] at hc
          rcases hc with hc | rfl
          · exact hasym _ _ _ hb (hs c hc)
          · exact hirr _)
        simpa using this
      · rw [if_neg hb]
        have := ih b0 (seen ++ [d]) (by simp [hm]) (by
          intro c hc
          rw [List.mem_append, List.mem_singleton] at hc
          rcases hc with hc | rfl
          · exact hs c hc
          · simpa using hb)
        simpa using this
  have := key cs c [c] (by simp) (by simpa using hirr _)
  exact ⟨_, this.1, this.2⟩

theorem pickBest_max {α : Type} (l : List (α × K)) (x : α)
    (h : pickBest (fun a b => decide (a > b)) l = .ok x) : ∃ v, (x, v) ∈ l ∧ ∀ c ∈ l, c.2 ≤ v := by
  obtain ⟨v, hv, hmax⟩ := pickBest_spec (fun a b : K => decide (a > b))
    (fun a => by simp) (fun a b c h1 h2 => by simp only [decide_eq_false_iff_not, decide_eq_true_eq] at *; exact not_lt.2 ((not_lt.1 h2).trans h1.le)) l x h
  exact ⟨v, hv, fun c hc => by simpa using hmax c hc⟩

theorem pickBest_min {α : Type} (l : List (α × K)) (x : α)
    (h : pickBest (fun a b => decide (a < b)) l = .ok x) : ∃ v, (x, v) ∈ l ∧ ∀ c ∈ l, v ≤ c.2 := by
  obtain ⟨v, hv, hmax⟩ := pickBest_spec (fun a b : K => decide (a < b))
    (fun a => by simp) (fun a b c h1 h2 => by simp only [decide_eq_false_iff_not, decide_eq_true_eq] at *; exact not_lt.2 (h1.le.trans (not_lt.1 h2))) l x h
  exact ⟨v, hv, fun c hc => by simpa using hmax c hc⟩

theorem linspace01_mem (k : ℕ) (x : K) (h : x ∈ (linspace01 k : List K)) : 0 ≤ x ∧ x ≤ 1 := by
  unfold linspace01 at h
  rw [List.mem_map] at h
  obtain ⟨j, hj, rfl⟩ := h
  rw [List.mem_range] at hj
  split
  · exact ⟨le_rfl, zero_le_one⟩
  · have hk : (1 : K) < k := by
      have : 1 < k := by omega
      exact_mod_cast this
    have hjk : (j : K) + 1 ≤ k := by exact_mod_cast hj
    have hpos : (0 : K) < (k : K) - 1 := by linarith
    constructor
    · exact div_nonneg (Nat.cast_nonneg j) hpos.le
    · rw [div_le_one hpos]; linarith

theorem frontierPoints_mem (k : ℕ) : ∀ (l : List (Fin n → K)) w, w ∈ frontierPoints k l →
    ∃ w0 w1 a, Adjacent l w0 w1 ∧ 0 ≤ a ∧ a ≤ 1 ∧ w = mix a w0 w1 := by
  intro l
  induction l with
  | nil => intro w hw; simp [frontierPoints] at hw
  | cons w0 l ih =>
    intro w hw
    rcases l with _ | ⟨w1, rest⟩
    · simp [frontierPoints] at hw
    · rw [frontierPoints] at hw
      simp only [List.mem_append, List.mem_map] at hw
      rcases hw with ⟨j, hj, rfl⟩ | hw
      · have hj' : j ∈ (linspace01 k : List K) := by
          split at hj
          · exact hj
          · exact List.mem_of_mem_dropLast hj
        obtain ⟨h0, h1⟩ := linspace01_mem k j hj'
        refine ⟨w0, w1, 1 - j, ⟨[], rest, rfl⟩, by linarith, by linarith, ?_⟩
        funext i
        simp only [mix]
        ring
      · obtain ⟨v0, v1, a, hadj, h⟩ := ih w hw
        exact ⟨v0, v1, a, hadj.cons, h⟩

end Verif.Cla
