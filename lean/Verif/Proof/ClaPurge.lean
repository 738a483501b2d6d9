import Verif.Spec.Cla
import Mathlib.Tactic.Linarith

/-! The purging loops: termination and effect. -/

set_option linter.unusedSectionVars false

namespace Verif.Cla
open Verif.Py

variable {K : Type} [Field K] [LinearOrder K] [IsStrictOrderedRing K]
variable {n : ℕ}

/-- One turning point with its multiplier, gamma and free set. -/
abbrev Row (n : ℕ) (K : Type) := (Fin n → K) × Option K × Option K × List (Fin n)

/-- Four aligned lists. -/
def ofRows (q : List (Row n K)) : State n K :=
  { w := q.map (·.1), ls := q.map (·.2.1), g := q.map (·.2.2.1), f := q.map (·.2.2.2) }

theorem del_ofRows (q : List (Row n K)) (i : ℕ) : (ofRows q).del i = ofRows (q.eraseIdx i) := by
  simp [State.del, ofRows, List.eraseIdx_map]

/-- Four lists of equal length are the columns of one list of rows. -/
theorem exists_rows (s : State n K) (h1 : s.ls.length = s.w.length) (h2 : s.g.length = s.w.length)
    (h3 : s.f.length = s.w.length) : ∃ q, s = ofRows q := by
  obtain ⟨w, ls, g, f⟩ := s
  simp only at h1 h2 h3
  induction w generalizing ls g f with
  | nil =>
    rw [List.length_nil, List.length_eq_zero_iff] at h1 h2 h3
    subst h1 h2 h3
    exact ⟨[], rfl⟩
  | cons a w ih =>
    rcases ls with _ | ⟨b, ls⟩
    · simp at h1
    rcases g with _ | ⟨c, g⟩
    · simp at h2
    rcases f with _ | ⟨d, f⟩
    · simp at h3
    obtain ⟨q, hq⟩ := ih ls g f (by simpa using h1) (by simpa using h2) (by simpa using h3)
    refine ⟨(a, b, c, d) :: q, ?_⟩
    simp only [ofRows, State.mk.injEq] at hq ⊢
    simp [hq.1, hq.2.1, hq.2.2.1, hq.2.2.2]

theorem eraseIdx_take_drop {α : Type} (q : List α) (i : ℕ) (x : α) (h : q[i]? = some x) :
    q.eraseIdx i = q.take i ++ q.drop (i + 1) ∧ q.drop i = x :: q.drop (i + 1) := by
  have hi : i < q.length := by
    by_contra hc
    rw [List.getElem?_eq_none (by omega)] at h
    cases h
  rw [List.getElem?_eq_getElem hi] at h
  refine ⟨List.eraseIdx_eq_take_drop_succ q i, ?_⟩
  rw [List.drop_eq_getElem_cons hi]
  simp only [Option.some.injEq] at h
  rw [h]

theorem purgeNumErr_spec (p : Problem n K) (tol : K) : ∀ (m : ℕ) (fuel i : ℕ) (q : List (Row n K)),
    q.length - i = m → i ≤ q.length → m + 1 ≤ fuel →
    purgeNumErr p tol fuel i (ofRows q) =
      some (ofRows (q.take i ++ (q.drop i).filter (fun r => !numErr p tol r.1))) := by
  intro m
  induction m with
  | zero =>
    intro fuel i q hm hi hf
    obtain ⟨fuel, rfl⟩ : ∃ k, fuel = k + 1 := ⟨fuel - 1, by omega⟩
    have hiq : i = q.length := by omega
    have hnone : (ofRows q).w[i]? = none := by simp [ofRows, hiq]
    rw [purgeNumErr, hnone]
    simp [hiq]
  | succ m ih =>
    intro fuel i q hm hi hf
    obtain ⟨fuel, rfl⟩ : ∃ k, fuel = k + 1 := ⟨fuel - 1, by omega⟩
    have hlt : i < q.length := by omega
    have hg : q[i]? = some q[i] := List.getElem?_eq_getElem hlt
    obtain ⟨he, hd⟩ := eraseIdx_take_drop q i _ hg
    have hsome : (ofRows q).w[i]? = some q[i].1 := by simp [ofRows, hg]
    rw [purgeNumErr, hsome]
    simp only
    split
    · rename_i hbad
      rw [del_ofRows, ih fuel i (q.eraseIdx i) (by rw [List.length_eraseIdx_of_lt hlt]; omega)
        (by rw [List.length_eraseIdx_of_lt hlt]; omega) (by omega)]
      congr 2
      rw [hd, List.filter_cons, he]
      simp only [hbad, Bool.not_true, Bool.false_eq_true, if_false]
      rw [List.take_append_of_le_length (by simp; omega), List.take_take, min_self]
      congr 2
      rw [List.drop_append]
      simp [List.length_take, min_eq_left hi]
    · rename_i hok
      rw [ih fuel (i + 1) q (by omega) (by omega) (by omega)]
      congr 2
      rw [hd, List.filter_cons]
      rw [if_pos (by simpa using hok), List.take_add_one, hg, Option.toList_some, List.append_assoc,
        List.singleton_append]

/-- Turning points that are not beaten by a later one. -/
def keep (p : Problem n K) : List (Row n K) → List (Row n K)
  | [] => []
  | x :: xs => if xs.any (fun y => decide (ret p x.1 < ret p y.1)) then keep p xs else x :: keep p xs

theorem keep_sublist (p : Problem n K) (q : List (Row n K)) : (keep p q).Sublist q := by
  induction q with
  | nil => exact List.Sublist.refl _
  | cons x xs ih =>
    rw [keep]
    split
    · exact ih.trans (List.sublist_cons_self _ _)
    · exact ih.cons_cons x

theorem keep_pairwise (p : Problem n K) (q : List (Row n K)) :
    (keep p q).Pairwise (fun x y => ret p y.1 ≤ ret p x.1) := by
  induction q with
  | nil => exact List.Pairwise.nil
  | cons x xs ih =>
    rw [keep]
    split
    · exact ih
    · rename_i h
      rw [List.pairwise_cons]
      refine ⟨?_, ih⟩
      intro y hy
      have := (keep_sublist p xs).subset hy
      simp only [List.any_eq_true, decide_eq_true_eq, not_exists, not_and] at h
      exact not_lt.1 (h y this)

theorem keep_ne_nil (p : Problem n K) (q : List (Row n K)) (h : q ≠ []) : keep p q ≠ [] := by
  induction q with
  | nil => exact absurd rfl h
  | cons x xs ih =>
    rw [keep]
    split
    · rename_i hany
      apply ih
      rintro rfl
      simp at hany
    · simp

/-- The loop keeps the last point. -/
theorem keep_singleton (p : Problem n K) (x : Row n K) : keep p [x] = [x] := by simp [keep]

theorem purgeExcess_spec (p : Problem n K) : ∀ (m : ℕ) (fuel i : ℕ) (q : List (Row n K)),
    q.length - i = m → i < q.length → m + 1 ≤ fuel →
    purgeExcess p fuel i (ofRows q) = some (ofRows (q.take i ++ keep p (q.drop i)), .ok ()) := by
  intro m
  induction m with
  | zero => intro fuel i q hm hi; omega
  | succ m ih =>
    intro fuel i q hm hi hf
    obtain ⟨fuel, rfl⟩ : ∃ k, fuel = k + 1 := ⟨fuel - 1, by omega⟩
    have hg : q[i]? = some q[i] := List.getElem?_eq_getElem hi
    obtain ⟨he, hd⟩ := eraseIdx_take_drop q i _ hg
    rw [purgeExcess]
    by_cases hl : i + 1 = q.length
    · rw [if_pos (by simpa [ofRows] using hl)]
      congr 3
      have : q.drop (i + 1) = [] := by rw [hl]; simp
      rw [hd, this, keep_singleton, ← List.singleton_append]
      conv_lhs => rw [← List.take_append_drop i q, hd, this]
      rfl
    · rw [if_neg (by simpa [ofRows] using hl)]
      have hsome : (ofRows q).w[i]? = some q[i].1 := by simp [ofRows, hg]
      rw [hsome]
      simp only
      have hany : laterLarger p (ret p q[i].1) ((ofRows q).w.drop (i + 1)) =
          (q.drop (i + 1)).any (fun y => decide (ret p q[i].1 < ret p y.1)) := by
        simp only [laterLarger, ofRows, ← List.map_drop, List.any_map]
        rfl
      rw [hany]
      split
      · rename_i hbad
        rw [del_ofRows, ih fuel i (q.eraseIdx i) (by rw [List.length_eraseIdx_of_lt hi]; omega)
          (by rw [List.length_eraseIdx_of_lt hi]; omega) (by omega)]
        congr 3
        rw [hd, keep, if_pos hbad, he]
        rw [List.take_append_of_le_length (by simp; omega), List.take_take, min_self]
        congr 2
        rw [List.drop_append]
        simp [List.length_take, min_eq_left hi.le]
      · rename_i hok
        rw [ih fuel (i + 1) q (by omega) (by omega) (by omega)]
        congr 3
        rw [hd, keep, if_neg hok, List.take_add_one, hg, Option.toList_some, List.append_assoc,
          List.singleton_append]

/-! ### The main loop keeps the lists aligned -/

theorem ofRows_snoc (q : List (Row n K)) (r : Row n K) :
    ofRows (q ++ [r]) = ⟨(ofRows q).w ++ [r.1], (ofRows q).ls ++ [r.2.1],
      (ofRows q).g ++ [r.2.2.1], (ofRows q).f ++ [r.2.2.2]⟩ := by
  simp [ofRows]

theorem ofRows_snoc' (q : List (Row n K)) (a : Fin n → K) (b c : Option K) (d : List (Fin n)) :
    (⟨(ofRows q).w ++ [a], (ofRows q).ls ++ [b], (ofRows q).g ++ [c], (ofRows q).f ++ [d]⟩ : State n K) =
      ofRows (q ++ [(a, b, c, d)]) := (ofRows_snoc q (a, b, c, d)).symm

theorem solveStep_rows (p : Problem n K) (inv : Inv K) (q : List (Row n K)) (f : List (Fin n))
    (w : Fin n → K) (s' : State n K) (f' : List (Fin n)) (w' : Fin n → K) (b : Bool)
    (h : solveStep p inv (ofRows q) f w = .ok (s', f', w', b)) :
    ∃ r : Row n K, s' = ofRows (q ++ [r]) ∧ r.1 = w' ∧ r.2.2.2 = f' := by
  unfold solveStep at h
  simp only [bind, Except.bind] at h
  split at h
  · cases h
  split at h
  · cases h
  split at h
  · split at h
    · cases h
    · simp only [pure, Except.pure, Except.ok.injEq, Prod.mk.injEq] at h
      obtain ⟨rfl, rfl, rfl, -⟩ := h
      exact ⟨_, ofRows_snoc' q _ _ _ _, rfl, rfl⟩
  · split at h
    · cases h
    · simp only [pure, Except.pure, Except.ok.injEq, Prod.mk.injEq] at h
      obtain ⟨rfl, rfl, rfl, -⟩ := h
      exact ⟨_, ofRows_snoc' q _ _ _ _, rfl, rfl⟩

theorem solveLoop_rows (p : Problem n K) (inv : Inv K) (fuel : ℕ) : ∀ (q : List (Row n K))
    (f : List (Fin n)) (w : Fin n → K) (s' : State n K) (r : Except PyErr Unit),
    solveLoop p inv fuel (ofRows q) f w = some (s', r) →
    ∃ q', s' = ofRows (q ++ q') ∧ (r = .ok () → q' ≠ []) := by
  induction fuel with
  | zero => intro q f w s' r h; cases h
  | succ fuel ih =>
    intro q f w s' r h
    rw [solveLoop] at h
    split at h
    · simp only [Option.some.injEq, Prod.mk.injEq] at h
      obtain ⟨rfl, rfl⟩ := h
      exact ⟨[], by simp, by simp⟩
    · rename_i s1 f1 w1 hs
      simp only [Option.some.injEq, Prod.mk.injEq] at h
      obtain ⟨rfl, rfl⟩ := h
      obtain ⟨row, rfl, -⟩ := solveStep_rows p inv q f w _ _ _ _ hs
      exact ⟨[row], rfl, by simp⟩
    · rename_i s1 f1 w1 hs
      obtain ⟨row, rfl, -⟩ := solveStep_rows p inv q f w _ _ _ _ hs
      obtain ⟨q', rfl, hq⟩ := ih _ _ _ _ _ h
      exact ⟨row :: q', by simp, by simp⟩

end Verif.Cla
