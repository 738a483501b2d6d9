import Verif.Spec.Cla
import Mathlib.Tactic.Linarith
import Mathlib.Tactic.Ring
import Mathlib.Algebra.Order.BigOperators.Group.Finset
import Mathlib.Algebra.BigOperators.Ring.Finset

/-! The first turning point. -/

set_option linter.unusedSectionVars false

namespace Verif.Cla
open Verif.Py

variable {K : Type} [Field K] [LinearOrder K] [IsStrictOrderedRing K]
variable {n : ℕ}

theorem order_perm (p : Problem n K) : (order p).Perm (List.finRange n) :=
  List.perm_insertionSort _ _

theorem order_sorted (p : Problem n K) : (order p).Pairwise (fun i j => p.mean i ≤ p.mean j) := by
  have ht : Std.Total (fun i j : Fin n => p.mean i < p.mean j ∨ (p.mean i = p.mean j ∧ i ≤ j)) :=
    ⟨fun i j => by
      rcases lt_trichotomy (p.mean i) (p.mean j) with h | h | h
      · exact .inl (.inl h)
      · rcases le_total i j with h2 | h2
        · exact .inl (.inr ⟨h, h2⟩)
        · exact .inr (.inr ⟨h.symm, h2⟩)
      · exact .inr (.inl h)⟩
  have htr : IsTrans (Fin n) (fun i j : Fin n => p.mean i < p.mean j ∨ (p.mean i = p.mean j ∧ i ≤ j)) :=
    ⟨fun i j k h1 h2 => by
      rcases h1 with h1 | ⟨h1, h1'⟩ <;> rcases h2 with h2 | ⟨h2, h2'⟩
      · exact .inl (h1.trans h2)
      · exact .inl (h2 ▸ h1)
      · exact .inl (h1 ▸ h2)
      · exact .inr ⟨h1.trans h2, h1'.trans h2'⟩⟩
  have := List.pairwise_insertionSort
    (fun i j : Fin n => p.mean i < p.mean j ∨ (p.mean i = p.mean j ∧ i ≤ j)) (List.finRange n)
  exact this.imp (fun h => by rcases h with h | h <;> [exact h.le; exact h.1.le])

/-- The working vector after the assets in `done` were moved to their upper bounds. -/
def filled (p : Problem n K) (done : List (Fin n)) (i : Fin n) : K :=
  if i ∈ done then p.uB i else p.lB i

theorem filled_snoc (p : Problem n K) (done : List (Fin n)) (j : Fin n) :
    Function.update (filled p done) j (p.uB j) = filled p (done ++ [j]) := by
  funext i
  unfold filled
  by_cases h : i = j
  · subst h; simp
  · simp [h]

theorem sum_update (w : Fin n → K) (j : Fin n) (v : K) :
    ∑ i, Function.update w j v i = ∑ i, w i - w j + v := by
  have h1 : ∑ i, Function.update w j v i = ∑ i, (w i + (if i = j then v - w j else 0)) := by
    apply Finset.sum_congr rfl
    intro i _
    by_cases h : i = j
    · subst h; simp
    · simp [h]
  rw [h1, Finset.sum_add_distrib, Finset.sum_ite_eq' Finset.univ j]
  simp only [Finset.mem_univ, if_true]
  ring

theorem initWalk_ok (p : Problem n K) (hid : p.store = id) (hb : ∀ i, p.lB i ≤ p.uB i)
    (hu : 1 ≤ ∑ i, p.uB i) (extra : List (Fin n)) : ∀ (vs done : List (Fin n)),
    (done ++ vs).Perm (List.finRange n) →
    (done ++ vs).Pairwise (fun i j => p.mean j ≤ p.mean i) →
    (∑ i, filled p [] i < 1) →
    (∀ d j, done = d ++ [j] → ∑ i, filled p d i < 1) →
    ∃ j w, initWalk p (vs ++ extra) (filled p done) done.getLast? = .ok ([j], w) ∧ InitOk p j w := by
  intro vs
  induction vs with
  | nil =>
    intro done hperm hsort h0 hprev
    have hall : ∀ i, i ∈ done := fun i => by
      have := hperm.mem_iff.2 (List.mem_finRange i); simpa using this
    have hge : ¬ ∑ i, filled p done i < 1 := by
      rw [not_lt]
      refine hu.trans (le_of_eq ?_)
      apply Finset.sum_congr rfl
      intro i _
      simp [filled, hall i]
    rw [List.nil_append, initWalk.eq_def, if_neg hge]
    rcases List.eq_nil_or_concat done with rfl | ⟨d, j, rfl⟩
    · exact absurd h0 hge
    · simp only [List.concat_eq_append, List.getLast?_append, List.getLast?_singleton, Option.some_or]
      exact ⟨j, _, rfl, by
        rw [hid]
        simp only [List.append_nil, List.concat_eq_append] at *
        exact finish p hb d j [] (by simpa using hperm) (by simpa using hsort) (hprev d j rfl) (not_lt.1 hge)⟩
  | cons v vs ih =>
    intro done hperm hsort h0 hprev
    rw [List.cons_append, initWalk.eq_def]
    by_cases hlt : ∑ i, filled p done i < 1
    · rw [if_pos hlt]
      simp only [hid, id_eq]
      rw [filled_snoc]
      have := ih (done ++ [v]) (by simpa using hperm) (by simpa using hsort) h0 (by
        intro d j he
        have := List.append_inj_left' he (by simp)
        rw [← this]; exact hlt)
      simpa using this
    · rw [if_neg hlt]
      rcases List.eq_nil_or_concat done with rfl | ⟨d, j, rfl⟩
      · exact absurd h0 hlt
      · simp only [List.concat_eq_append, List.getLast?_append, List.getLast?_singleton, Option.some_or]
        exact ⟨j, _, rfl, by
          rw [hid]
          simp only [List.concat_eq_append] at *
          exact finish p hb d j (v :: vs) (by simpa using hperm) (by simpa using hsort) (hprev d j rfl) (not_lt.1 hlt)⟩
where
  finish (p : Problem n K) (hb : ∀ i, p.lB i ≤ p.uB i) (d : List (Fin n)) (j : Fin n)
      (vs : List (Fin n)) (hperm : (d ++ j :: vs).Perm (List.finRange n))
      (hsort : (d ++ j :: vs).Pairwise (fun i j => p.mean j ≤ p.mean i))
      (hprev : ∑ i, filled p d i < 1) (hge : 1 ≤ ∑ i, filled p (d ++ [j]) i) :
      InitOk p j (Function.update (filled p (d ++ [j])) j
        (id (filled p (d ++ [j]) j + (1 - ∑ i, filled p (d ++ [j]) i)))) := by
    have hnd : (d ++ j :: vs).Nodup := hperm.nodup_iff.2 (List.nodup_finRange n)
    have hjd : j ∉ d := by
      intro h
      exact (List.nodup_append.1 hnd).2.2 j h j (by simp) rfl
    set W := ∑ i, filled p (d ++ [j]) i with hW
    have hWd : W = ∑ i, filled p d i - p.lB j + p.uB j := by
      rw [hW, ← filled_snoc, sum_update]
      simp [filled, hjd]
    have hfj : filled p (d ++ [j]) j = p.uB j := by simp [filled]
    have hval : id (filled p (d ++ [j]) j + (1 - W)) = p.uB j + (1 - W) := by rw [hfj]; rfl
    rw [hval]
    set w := Function.update (filled p (d ++ [j])) j (p.uB j + (1 - W)) with hw
    have hwj : w j = p.uB j + (1 - W) := by simp [hw]
    have hwi : ∀ i, i ≠ j → w i = if i ∈ d then p.uB i else p.lB i := by
      intro i hi
      rw [hw, Function.update_of_ne hi]
      simp [filled, hi]
    have hfeas : Feasible p w := by
      refine ⟨?_, ?_⟩
      · intro i
        by_cases hi : i = j
        · subst hi
          rw [hwj]
          constructor <;> linarith
        · rw [hwi i hi]
          split
          · exact ⟨hb i, le_rfl⟩
          · exact ⟨le_rfl, hb i⟩
      · rw [hw, sum_update, hfj, ← hW]; ring
    refine ⟨hfeas, ?_, ?_⟩
    · intro i hi
      rw [hwi i hi]
      rw [List.pairwise_append, List.pairwise_cons] at hsort
      split
      · rename_i hid
        exact .inr ⟨rfl, hsort.2.2 i hid j (by simp)⟩
      · rename_i hid
        have hiv : i ∈ vs := by
          have := hperm.mem_iff.2 (List.mem_finRange i)
          simp only [List.mem_append, List.mem_cons] at this
          tauto
        exact .inl ⟨rfl, hsort.2.1.1 i hiv⟩
    · intro x hx
      have hmean : ∀ i, i ≠ j → (x i - w i) * (p.mean i - p.mean j) ≤ 0 := by
        intro i hi
        rw [hwi i hi]
        rw [List.pairwise_append, List.pairwise_cons] at hsort
        split
        · rename_i hid
          have h1 : p.mean j ≤ p.mean i := hsort.2.2 i hid j (by simp)
          have h2 := (hx.1 i).2
          exact mul_nonpos_of_nonpos_of_nonneg (by linarith) (by linarith)
        · rename_i hid
          have hiv : i ∈ vs := by
            have := hperm.mem_iff.2 (List.mem_finRange i)
            simp only [List.mem_append, List.mem_cons] at this
            tauto
          have h1 : p.mean i ≤ p.mean j := hsort.2.1.1 i hiv
          have h2 := (hx.1 i).1
          exact mul_nonpos_of_nonneg_of_nonpos (by linarith) (by linarith)
      have hsum : ∑ i, (x i - w i) * (p.mean i - p.mean j) ≤ 0 := by
        apply Finset.sum_nonpos
        intro i _
        by_cases hi : i = j
        · subst hi; simp
        · exact hmean i hi
      have hexp : ∑ i, (x i - w i) * (p.mean i - p.mean j) =
          (∑ i, x i * p.mean i - ∑ i, w i * p.mean i) - (∑ i, x i - ∑ i, w i) * p.mean j := by
        rw [← Finset.sum_sub_distrib, ← Finset.sum_sub_distrib, Finset.sum_mul, ← Finset.sum_sub_distrib]
        apply Finset.sum_congr rfl
        intro i _; ring
      rw [hexp, hx.2, hfeas.2] at hsum
      linarith

theorem initWalk_err (p : Problem n K) (hid : p.store = id) (hb : ∀ i, p.lB i ≤ p.uB i)
    (hu : ∑ i, p.uB i < 1) : ∀ (vs : List (Fin n)) (w : Fin n → K) (cur : Option (Fin n)),
    (∀ i, w i ≤ p.uB i) → initWalk p vs w cur = .error .indexError := by
  intro vs
  induction vs with
  | nil =>
    intro w cur hw
    rw [initWalk.eq_def, if_pos (lt_of_le_of_lt (Finset.sum_le_sum (fun i _ => hw i)) hu)]
  | cons v vs ih =>
    intro w cur hw
    rw [initWalk.eq_def, if_pos (lt_of_le_of_lt (Finset.sum_le_sum (fun i _ => hw i)) hu)]
    simp only [hid, id_eq]
    apply ih
    intro i
    by_cases h : i = v
    · subst h; simp
    · rw [Function.update_of_ne h]; exact hw i

end Verif.Cla
