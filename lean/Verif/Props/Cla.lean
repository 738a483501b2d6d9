import Verif.Proof.ClaInit
import Verif.Proof.ClaPurge
import Verif.Proof.ClaGolden
import Verif.Proof.ClaSmallInv

/-! C17, C18, C19: the first turning point, the purged list, and the portfolios handed to the user. -/

set_option linter.unusedSectionVars false

namespace Verif.Cla
open Verif.Py

variable {K : Type} [Field K] [LinearOrder K] [IsStrictOrderedRing K]
variable {n : ℕ}

/-! ### Example data -/

/-- Three assets, long only. -/
def p3 : Problem 3 ℚ where
  mean := ![3/10, 2/10, 1/10]
  cov := fun i j => ![![9/100, 4/100, 0], ![4/100, 4/100, 1/100], ![0, 1/100, 1/100]] i j
  lB := fun _ => 0
  uB := fun _ => 1

/-- Three assets with a cap of one half. -/
def pCap : Problem 3 ℚ where
  mean := ![3/10, 1/10, 2/10]
  cov := fun i j => ![![9/100, 0, 0], ![0, 1/100, 0], ![0, 0, 4/100]] i j
  lB := fun _ => 1/10
  uB := fun _ => 1/2

/-! ### C17 -/

theorem C17_init_optimal (p : Problem n K) (hfloat : p.store = id) (hb : ∀ i, p.lB i ≤ p.uB i)
    (hl : ∑ i, p.lB i < 1) (hu : 1 ≤ ∑ i, p.uB i) :
    ∃ j w, initAlgo p = .ok ([j], w) ∧ Feasible p w ∧ (∀ i, i ≠ j → (w i = p.lB i ∧ p.mean i ≤ p.mean j) ∨ (w i = p.uB i ∧ p.mean j ≤ p.mean i)) ∧
      ∀ x, Feasible p x → expRet p x ≤ expRet p w := by
  have hrev : ((order p).reverse).Perm (List.finRange n) :=
    (List.reverse_perm _).trans (order_perm p)
  have hsort : ((order p).reverse).Pairwise (fun i j => p.mean j ≤ p.mean i) :=
    List.pairwise_reverse.2 (order_sorted p)
  have hfill : filled p [] = p.lB := by funext i; simp [filled]
  obtain ⟨j, w, h1, h2, h3, h4⟩ := initWalk_ok p hfloat hb hu (order p).reverse (order p).reverse []
    (by simpa using hrev) (by simpa using hsort) (by rw [hfill]; exact hl)
    (by intro d j h; simp at h)
  rw [hfill] at h1
  refine ⟨j, w, h1, h2, h3, fun x hx => ?_⟩
  have := h4 x hx
  simpa [expRet, mul_comm] using this

theorem C17_init_error (p : Problem n K) (hfloat : p.store = id) (hb : ∀ i, p.lB i ≤ p.uB i)
    (h : 1 ≤ ∑ i, p.lB i ∨ ∑ i, p.uB i < 1) : initAlgo p = .error .indexError := by
  rcases le_or_gt 1 (∑ i, p.lB i) with hl | hl
  · rw [initAlgo, initWalk.eq_def, if_neg (not_lt.2 hl)]
  · have hu := h.resolve_left (not_le.2 hl)
    exact initWalk_err p hfloat hb hu _ _ _ hb

/-- Outside those cases no answer is wrong: whatever is returned is the maximum-return portfolio. -/
theorem C17_init_no_wrong_answer (p : Problem n K) (hfloat : p.store = id) (hb : ∀ i, p.lB i ≤ p.uB i)
    (f : List (Fin n)) (w : Fin n → K) (h : initAlgo p = .ok (f, w)) :
    ∃ j, f = [j] ∧ Feasible p w ∧ (∀ i, i ≠ j → (w i = p.lB i ∧ p.mean i ≤ p.mean j) ∨ (w i = p.uB i ∧ p.mean j ≤ p.mean i)) ∧
      ∀ x, Feasible p x → expRet p x ≤ expRet p w := by
  by_cases hbad : 1 ≤ ∑ i, p.lB i ∨ ∑ i, p.uB i < 1
  · rw [C17_init_error p hfloat hb hbad] at h; cases h
  · push Not at hbad
    obtain ⟨j, w', h1, h2⟩ := C17_init_optimal p hfloat hb hbad.1 hbad.2
    rw [h1] at h
    cases h
    exact ⟨j, rfl, h2⟩

/-- The hypotheses are met, with an answer that is not a corner of the box. -/
example : (∀ i, pCap.lB i ≤ pCap.uB i) ∧ ∑ i, pCap.lB i < 1 ∧ 1 ≤ ∑ i, pCap.uB i ∧
    (match initAlgo pCap with
      | .ok (f, w) => decide (f = [2] ∧ w 0 = 1/2 ∧ w 1 = 1/10 ∧ w 2 = 2/5)
      | .error _ => false) = true := by
  refine ⟨fun i => ?_, ?_, ?_, ?_⟩
  · simp only [pCap]; norm_num
  · simp [pCap]; norm_num
  · simp [pCap]; norm_num
  · decide +kernel

/-- Bounds whose upper ends cannot reach 1. -/
example : ∑ i, ({ pCap with uB := fun _ => 1/4 } : Problem 3 ℚ).uB i < 1 := by simp; norm_num

/-! ### C18 -/

theorem numErr_false (p : Problem n K) (tol : K) (w : Fin n → K) : numErr p tol w = false ↔ Near p tol w := by
  simp only [numErr, Bool.or_eq_false_iff, decide_eq_false_iff_not, not_exists, not_or, not_lt, Near]
  refine and_congr Iff.rfl (forall_congr' fun i => and_congr ?_ ?_)
  · constructor <;> intro h <;> linarith
  · constructor <;> intro h <;> linarith

theorem rowsOf_ofRows (q : List (Row n K)) : rowsOf (ofRows q) = q := by
  induction q with
  | nil => rfl
  | cons x xs ih =>
    have : rowsOf (ofRows (x :: xs)) = x :: rowsOf (ofRows xs) := rfl
    rw [this, ih]

theorem aligned_ofRows (q : List (Row n K)) : Aligned (ofRows q) := by simp [Aligned, ofRows]

open Classical in
/-- Purging numerical errors terminates within one step per point plus one, keeps the lists aligned and
keeps exactly the points that are feasible within the tolerance, in order. -/
theorem C18_purge_num_err (p : Problem n K) (tol : K) (s : State n K) (h : Aligned s) :
    ∃ s', purgeNumErr p tol (s.w.length + 1) 0 s = some s' ∧ Aligned s' ∧
      rowsOf s' = (rowsOf s).filter (fun r => decide (Near p tol r.1)) := by
  obtain ⟨q, rfl⟩ := exists_rows s h.1 h.2.1 h.2.2
  refine ⟨_, purgeNumErr_spec p tol q.length _ 0 q (by simp) (by simp) (by simp [ofRows]), aligned_ofRows _, ?_⟩
  rw [rowsOf_ofRows, rowsOf_ofRows]
  simp only [List.take_zero, List.drop_zero, List.nil_append]
  apply List.filter_congr
  intro r _
  by_cases hr : Near p tol r.1
  · simp [hr, (numErr_false p tol r.1).2 hr]
  · have : ¬ numErr p tol r.1 = false := fun hc => hr ((numErr_false p tol r.1).1 hc)
    simp [hr, this]

theorem ret_eq (p : Problem n K) (w : Fin n → K) : ret p w = expRet p w := by
  simp [ret, expRet, mul_comm]

theorem keep_removed (p : Problem n K) (q : List (Row n K)) : ∀ r ∈ q, r ∈ keep p q ∨
    ∃ r', [r, r'].Sublist q ∧ expRet p r.1 < expRet p r'.1 := by
  induction q with
  | nil => simp
  | cons x xs ih =>
    intro r hr
    rw [List.mem_cons] at hr
    rw [keep]
    rcases hr with rfl | hr
    · split
      · rename_i hany
        rw [List.any_eq_true] at hany
        obtain ⟨y, hy, hlt⟩ := hany
        right
        refine ⟨y, (List.singleton_sublist.2 hy).cons_cons r, ?_⟩
        simpa [ret_eq] using hlt
      · left; simp
    · rcases ih r hr with h | ⟨r', h1, h2⟩
      · left
        split
        · exact h
        · exact List.mem_cons_of_mem _ h
      · right
        exact ⟨r', h1.trans (List.sublist_cons_self _ _), h2⟩

/-- Purging the excess terminates; with at least two points it keeps the first, keeps a sub-list of the
others in non-increasing order of return, and drops a point only if a later one returns more. -/
theorem C18_purge_excess (p : Problem n K) (s : State n K) (h : Aligned s) (h2 : 2 ≤ s.w.length) :
    ∃ s', purgeExcess p (s.w.length + 1) 1 s = some (s', .ok ()) ∧ Aligned s' ∧
      (rowsOf s').head? = (rowsOf s).head? ∧
      (rowsOf s').tail.Sublist (rowsOf s).tail ∧ (rowsOf s').tail ≠ [] ∧
      (rowsOf s').tail.Pairwise (fun x y => expRet p y.1 ≤ expRet p x.1) ∧
      ∀ r ∈ (rowsOf s).tail, r ∈ (rowsOf s').tail ∨
        ∃ r', [r, r'].Sublist (rowsOf s).tail ∧ expRet p r.1 < expRet p r'.1 := by
  obtain ⟨q, rfl⟩ := exists_rows s h.1 h.2.1 h.2.2
  have hq : 2 ≤ q.length := by simpa [ofRows] using h2
  refine ⟨_, purgeExcess_spec p (q.length - 1) _ 1 q rfl (by omega) (by simp [ofRows]), aligned_ofRows _, ?_⟩
  rw [rowsOf_ofRows, rowsOf_ofRows]
  rcases q with _ | ⟨x, xs⟩
  · simp at hq
  have hxs : xs ≠ [] := by rintro rfl; simp at hq
  simp only [List.take_succ_cons, List.take_zero, List.drop_succ_cons, List.drop_zero, List.singleton_append,
    List.head?_cons, List.tail_cons]
  refine ⟨trivial, keep_sublist p xs, keep_ne_nil p xs hxs, ?_, keep_removed p xs⟩
  have := keep_pairwise p xs
  simpa only [ret_eq] using this

theorem C18_purge_excess_short (p : Problem n K) (s : State n K) (h2 : s.w.length < 2) :
    purgeExcess p (s.w.length + 1) 1 s = some (s, .error .indexError) := by
  rw [purgeExcess, if_neg (by omega), List.getElem?_eq_none (by omega)]

/-- What `_solve` leaves on a fresh object when it returns normally. -/
theorem C18_solve (p : Problem n K) (inv : Inv K) (fuel : ℕ) (s' : State n K)
    (h : solve p inv fuel {} = some (s', .ok ())) :
    Aligned s' ∧ 2 ≤ s'.w.length ∧ (∀ w ∈ s'.w, Near p (1 / 10 ^ 9) w) ∧
      s'.w.tail.Pairwise (fun x y => expRet p y ≤ expRet p x) := by
  unfold solve at h
  split at h
  · cases h
  rename_i f w hinit
  simp only [List.nil_append] at h
  have hs1 : (⟨[w], [none], [none], [f]⟩ : State n K) = ofRows [(w, none, none, f)] := rfl
  rw [hs1] at h
  split at h
  · cases h
  · cases h
  rename_i s2 u hloop
  obtain ⟨q', rfl, -⟩ := solveLoop_rows p inv fuel _ _ _ _ _ hloop
  obtain ⟨s3, hs3, hal3, hrows3⟩ := C18_purge_num_err p (1 / 10 ^ 9) _ (aligned_ofRows ([(w, none, none, f)] ++ q'))
  rw [hs3] at h
  simp only at h
  by_cases h2 : 2 ≤ s3.w.length
  · obtain ⟨s4, hs4, hal4, hhead, hsub, hne, hpw, -⟩ := C18_purge_excess p s3 hal3 h2
    rw [hs4] at h
    cases h
    obtain ⟨q4, rfl⟩ := exists_rows s' hal4.1 hal4.2.1 hal4.2.2
    rw [rowsOf_ofRows] at hhead hsub hne hpw
    have hw4 : (ofRows q4).w = q4.map (·.1) := rfl
    rcases q4 with _ | ⟨x, xs⟩
    · simp at hne
    have hxs : xs ≠ [] := by simpa using hne
    refine ⟨hal4, ?_, ?_, ?_⟩
    · rcases xs with _ | ⟨y, ys⟩
      · simp at hxs
      · simp [ofRows]
    · intro v hv
      rw [hw4, List.mem_map] at hv
      obtain ⟨r, hr, rfl⟩ := hv
      have hr3 : r ∈ rowsOf s3 := by
        rw [List.mem_cons] at hr
        rcases hr with rfl | hr
        · rw [List.head?_cons] at hhead
          exact List.mem_of_mem_head? hhead.symm
        · exact List.mem_of_mem_tail (hsub.subset (by simpa using hr))
      rw [hrows3, List.mem_filter] at hr3
      simpa using hr3.2
    · rw [hw4, List.map_cons, List.tail_cons, List.pairwise_map]
      simpa using hpw
  · rw [C18_purge_excess_short p s3 (by omega)] at h
    cases h

/-- Returned normally from a fresh object, the list starts with the maximum-return portfolio. -/
theorem C18_solve_first (p : Problem n K) (inv : Inv K) (fuel : ℕ) (s' : State n K)
    (hfloat : p.store = id) (hb : ∀ i, p.lB i ≤ p.uB i)
    (h : solve p inv fuel {} = some (s', .ok ())) :
    ∃ w, s'.w.head? = some w ∧ Feasible p w ∧ ∀ x, Feasible p x → expRet p x ≤ expRet p w := by
  unfold solve at h
  split at h
  · cases h
  rename_i f w hinit
  obtain ⟨j, -, hfeas, -, hmax⟩ := C17_init_no_wrong_answer p hfloat hb f w hinit
  simp only [List.nil_append] at h
  have hs1 : (⟨[w], [none], [none], [f]⟩ : State n K) = ofRows [(w, none, none, f)] := rfl
  rw [hs1] at h
  split at h
  · cases h
  · cases h
  rename_i s2 u hloop
  obtain ⟨q', rfl, -⟩ := solveLoop_rows p inv fuel _ _ _ _ _ hloop
  obtain ⟨s3, hs3, hal3, hrows3⟩ := C18_purge_num_err p (1 / 10 ^ 9) _ (aligned_ofRows ([(w, none, none, f)] ++ q'))
  rw [hs3] at h
  simp only at h
  by_cases h2 : 2 ≤ s3.w.length
  · obtain ⟨s4, hs4, hal4, hhead, -⟩ := C18_purge_excess p s3 hal3 h2
    rw [hs4] at h
    cases h
    have hnear : Near p (1 / 10 ^ 9) w := by
      have ht : (0 : K) ≤ 1 / 10 ^ 9 := by positivity
      refine ⟨by rw [hfeas.2]; simpa using ht, fun i => ?_⟩
      have := hfeas.1 i
      constructor <;> linarith
    rw [rowsOf_ofRows, List.singleton_append, List.filter_cons, if_pos (by simpa using hnear)] at hrows3
    rw [hrows3, List.head?_cons] at hhead
    obtain ⟨q4, rfl⟩ := exists_rows s' hal4.1 hal4.2.1 hal4.2.2
    rw [rowsOf_ofRows] at hhead
    refine ⟨w, ?_, hfeas, hmax⟩
    have : (ofRows q4).w = q4.map (·.1) := rfl
    rw [this, List.head?_map, hhead]
    rfl
  · rw [C18_purge_excess_short p s3 (by omega)] at h
    cases h

/-! ### C19 -/

theorem ensureSolved_fresh (p : Problem n K) (inv : Inv K) (fuel : ℕ) :
    ensureSolved p inv fuel {} = solve p inv fuel {} := by
  unfold ensureSolved; rw [if_pos rfl]

theorem C19_max_sharpe (p : Problem n K) (inv : Inv K) (sharpe : (Fin n → K) → K) (fuel : ℕ)
    (s' : State n K) (w : Fin n → K) (h : maxSharpe p inv sharpe fuel {} = some (s', .ok w)) :
    (∃ w0 w1 a, Adjacent s'.w w0 w1 ∧ 0 ≤ a ∧ a ≤ 1 ∧ w = mix a w0 w1) ∧ Near p (1 / 10 ^ 9) w := by
  unfold maxSharpe at h
  rw [ensureSolved_fresh] at h
  split at h
  · cases h
  · cases h
  rename_i s1 u hs
  simp only [Option.some.injEq, Prod.mk.injEq] at h
  obtain ⟨rfl, hpick⟩ := h
  obtain ⟨v, hv, -⟩ := pickBest_max _ _ hpick
  obtain ⟨w0, w1, a, hadj, h0, h1, hw, -⟩ := srCandidates_mem sharpe _ _ hv
  have hnear := (C18_solve p inv fuel s1 hs).2.2.1
  refine ⟨⟨w0, w1, a, hadj, h0, h1, hw⟩, ?_⟩
  have hw' : w = mix a w0 w1 := hw
  rw [hw']
  exact mix_near p _ a w0 w1 h0 h1 (hnear w0 hadj.mem.1) (hnear w1 hadj.mem.2)

theorem C19_min_volatility (p : Problem n K) (inv : Inv K) (fuel : ℕ)
    (s' : State n K) (w : Fin n → K) (h : minVolatility p inv fuel {} = some (s', .ok w)) :
    w ∈ s'.w ∧ Near p (1 / 10 ^ 9) w := by
  unfold minVolatility at h
  rw [ensureSolved_fresh] at h
  split at h
  · cases h
  · cases h
  rename_i s1 u hs
  simp only [Option.some.injEq, Prod.mk.injEq] at h
  obtain ⟨rfl, hpick⟩ := h
  obtain ⟨v, hv, -⟩ := pickBest_min _ _ hpick
  rw [List.mem_map] at hv
  obtain ⟨w', hw', he⟩ := hv
  cases he
  exact ⟨hw', (C18_solve p inv fuel s1 hs).2.2.1 w hw'⟩

theorem C19_efficient_frontier (p : Problem n K) (inv : Inv K) (fuel points : ℕ)
    (s' : State n K) (ws : List (Fin n → K)) (h : efficientFrontier p inv fuel points {} = some (s', .ok ws)) :
    ∀ w ∈ ws, (∃ w0 w1 a, Adjacent s'.w w0 w1 ∧ 0 ≤ a ∧ a ≤ 1 ∧ w = mix a w0 w1) ∧
      Near p (1 / 10 ^ 9) w := by
  unfold efficientFrontier at h
  rw [ensureSolved_fresh] at h
  split at h
  · cases h
  · cases h
  rename_i s1 u hs
  split at h
  · cases h
  simp only [Option.some.injEq, Prod.mk.injEq, Except.ok.injEq] at h
  obtain ⟨rfl, rfl⟩ := h
  have hnear := (C18_solve p inv fuel s1 hs).2.2.1
  intro w hw
  obtain ⟨w0, w1, a, hadj, h0, h1, rfl⟩ := frontierPoints_mem _ _ w hw
  exact ⟨⟨w0, w1, a, hadj, h0, h1, rfl⟩,
    mix_near p _ a w0 w1 h0 h1 (hnear w0 hadj.mem.1) (hnear w1 hadj.mem.2)⟩

/-- Once an object has been solved, later calls reuse the stored list and the same holds. -/
theorem C19_later_calls (p : Problem n K) (inv : Inv K) (sharpe : (Fin n → K) → K) (fuel points : ℕ)
    (s : State n K) (hs : s.w ≠ []) (hnear : ∀ w ∈ s.w, Near p (1 / 10 ^ 9) w) :
    (∀ s' w, maxSharpe p inv sharpe fuel s = some (s', .ok w) → s' = s ∧ Near p (1 / 10 ^ 9) w) ∧
    (∀ s' w, minVolatility p inv fuel s = some (s', .ok w) → s' = s ∧ Near p (1 / 10 ^ 9) w) ∧
    (∀ s' ws, efficientFrontier p inv fuel points s = some (s', .ok ws) →
      s' = s ∧ ∀ w ∈ ws, Near p (1 / 10 ^ 9) w) := by
  have he : ensureSolved p inv fuel s = some (s, .ok ()) := by unfold ensureSolved; rw [if_neg hs]
  refine ⟨?_, ?_, ?_⟩
  · intro s' w h
    unfold maxSharpe at h
    rw [he] at h
    simp only [Option.some.injEq, Prod.mk.injEq] at h
    obtain ⟨rfl, hpick⟩ := h
    obtain ⟨v, hv, -⟩ := pickBest_max _ _ hpick
    obtain ⟨w0, w1, a, hadj, h0, h1, hw, -⟩ := srCandidates_mem sharpe _ _ hv
    have hw' : w = mix a w0 w1 := hw
    rw [hw']
    exact ⟨rfl, mix_near p _ a w0 w1 h0 h1 (hnear w0 hadj.mem.1) (hnear w1 hadj.mem.2)⟩
  · intro s' w h
    unfold minVolatility at h
    rw [he] at h
    simp only [Option.some.injEq, Prod.mk.injEq] at h
    obtain ⟨rfl, hpick⟩ := h
    obtain ⟨v, hv, -⟩ := pickBest_min _ _ hpick
    rw [List.mem_map] at hv
    obtain ⟨w', hw', he⟩ := hv
    cases he
    exact ⟨rfl, hnear w hw'⟩
  · intro s' ws h
    unfold efficientFrontier at h
    rw [he] at h
    simp only [if_neg hs, Option.some.injEq, Prod.mk.injEq, Except.ok.injEq] at h
    obtain ⟨rfl, rfl⟩ := h
    refine ⟨rfl, fun w hw => ?_⟩
    obtain ⟨w0, w1, a, hadj, h0, h1, rfl⟩ := frontierPoints_mem _ _ w hw
    exact mix_near p _ a w0 w1 h0 h1 (hnear w0 hadj.mem.1) (hnear w1 hadj.mem.2)

end Verif.Cla
