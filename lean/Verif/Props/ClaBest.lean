import Verif.Proof.ClaBest
import Verif.Props.ClaFindings

/-! C91: where the critical line algorithm is right. -/

set_option linter.unusedSectionVars false

namespace Verif.Cla
open Verif.Py

variable {K : Type} [Field K] [LinearOrder K] [IsStrictOrderedRing K]
variable {n : ℕ}

/-- What is known of a stored line after the first. -/
def RowOk (p : Problem n K) (r : Row n K) : Prop :=
  ∃ l, r.2.1 = some l ∧ 0 ≤ l ∧
    (∑ i, r.1 i = 1 → ∃ g, Kkt p l g r.1 ∧ ∀ i, i ∈ r.2.2.2 → marg p r.1 i = g + l * p.mean i)

theorem loop_rows {p : Problem n K} (hid : p.store = id) (hb : ∀ i, p.lB i ≤ p.uB i) (hpd : PosDef p) (hnt : NoTies p)
    {inv : Inv K} (hinv : inv.Sound) (fuel : ℕ) : ∀ (q : List (Row n K)) (f : List (Fin n)) (w : Fin n → K)
    (s' : State n K), (ofRows q).w.getLast? = some w → Follows p inv f w (ofRows q).ls.getLast?.join →
    solveLoop p inv fuel (ofRows q) f w = some (s', .ok ()) →
    ∃ q' r, s' = ofRows (q ++ (q' ++ [r])) ∧ (∀ x ∈ q' ++ [r], RowOk p x) ∧ ∃ g, Kkt p 0 g r.1 := by
  induction fuel with
  | zero => intro q f w s' _ _ h; cases h
  | succ fuel ih =>
    intro q f w s' hlast hI h
    rw [solveLoop] at h
    split at h
    · cases h
    · rename_i s1 f1 w1 hs
      simp only [Option.some.injEq, Prod.mk.injEq, and_true] at h
      subst h
      obtain ⟨l, g0, hl, rfl, hk, hdone, -⟩ := follows_step hid hb hpd hnt hinv hlast hI hs
      refine ⟨[], (w1, some l, some g0, f1), by rw [ofRows_snoc']; rfl, ?_, (hdone rfl).2⟩
      intro x hx
      simp only [List.nil_append, List.mem_singleton] at hx
      subst hx
      exact ⟨l, rfl, hl, hk⟩
    · rename_i s1 f1 w1 hs
      obtain ⟨l, g0, hl, rfl, hk, -, hnext⟩ := follows_step hid hb hpd hnt hinv hlast hI hs
      rw [ofRows_snoc'] at h
      obtain ⟨q', r, rfl, hall, hlast'⟩ := ih (q ++ [(w1, some l, some g0, f1)]) f1 w1 s' (by simp [ofRows])
        (by obtain ⟨⟨W', g', hG⟩, -⟩ := hnext rfl; simpa [ofRows] using follows_good (inv := inv) hl hG) h
      refine ⟨(w1, some l, some g0, f1) :: q', r, by simp, ?_, hlast'⟩
      intro x hx
      rw [List.cons_append, List.mem_cons] at hx
      rcases hx with rfl | hx
      · exact ⟨l, rfl, hl, hk⟩
      · exact hall x hx

theorem keep_snoc (p : Problem n K) (q : List (Row n K)) (r : Row n K) : r ∈ keep p (q ++ [r]) := by
  induction q with
  | nil => simp [keep]
  | cons x xs ih =>
    rw [List.cons_append, keep]
    split
    · exact ih
    · exact List.mem_cons_of_mem _ ih

theorem near_of_feasible {p : Problem n K} {w : Fin n → K} (h : Feasible p w) : Near p (1 / 10 ^ 9) w := by
  have ht : (0 : K) ≤ 1 / 10 ^ 9 := by positivity
  refine ⟨by rw [h.2]; simpa using ht, fun i => ?_⟩
  have := h.1 i
  constructor <;> linarith

theorem initOk_of (p : Problem n K) (hid : p.store = id) (hb : ∀ i, p.lB i ≤ p.uB i) (f : List (Fin n)) (w : Fin n → K)
    (h : initAlgo p = .ok (f, w)) : ∃ j, f = [j] ∧ InitOk p j w := by
  obtain ⟨j, rfl, h1, h2, h3⟩ := C17_init_no_wrong_answer p hid hb f w h
  refine ⟨j, rfl, h1, h2, fun x hx => ?_⟩
  have := h3 x hx
  simpa [expRet, mul_comm] using this

/-- What `_solve` stores: the portfolio of largest return, then portfolios that are optimal for their multipliers. -/
theorem solve_rows {p : Problem n K} (hid : p.store = id) (hb : ∀ i, p.lB i ≤ p.uB i) (hpd : PosDef p)
    (hnt : NoTies p) {inv : Inv K} (hinv : inv.Sound) {fuel : ℕ} {s' : State n K}
    (h : solve p inv fuel {} = some (s', .ok ())) :
    ∃ r0 q, s' = ofRows (r0 :: q) ∧ (r0.2.1 = none ∧ Feasible p r0.1 ∧
        ∃ j, r0.2.2.2 = [j] ∧ ∀ x, Feasible p x → expRet p x ≤ expRet p r0.1) ∧
      (∀ x ∈ q, RowOk p x) ∧ ∃ r ∈ q, ∃ g, Kkt p 0 g r.1 := by
  unfold solve at h
  split at h
  · cases h
  rename_i f w hinit
  obtain ⟨j, rfl, hj⟩ := initOk_of p hid hb f w hinit
  simp only [List.nil_append] at h
  have hs1 : (⟨[w], [none], [none], [[j]]⟩ : State n K) = ofRows [(w, none, none, [j])] := rfl
  rw [hs1] at h
  split at h
  · cases h
  · cases h
  rename_i s2 u hloop
  obtain ⟨q', r, rfl, hall, g, hr⟩ := loop_rows hid hb hpd hnt hinv fuel _ _ _ _ (by rfl)
    (by exact follows_init hpd hinv hj) hloop
  rw [purgeNumErr_spec p (1 / 10 ^ 9) _ _ 0 _ rfl (by simp) (by simp [ofRows])] at h
  simp only [List.take_zero, List.drop_zero, List.nil_append] at h
  have hn0 : numErr p (1 / 10 ^ 9) w = false := (numErr_false p _ w).2 (near_of_feasible hj.1)
  have hnr : numErr p (1 / 10 ^ 9) r.1 = false := (numErr_false p _ r.1).2 (near_of_feasible hr.1)
  have hfilter : ([(w, none, none, [j])] ++ (q' ++ [r])).filter (fun r : Row n K => !numErr p (1 / 10 ^ 9) r.1) =
      (w, none, none, [j]) :: (q'.filter (fun r => !numErr p (1 / 10 ^ 9) r.1) ++ [r]) := by
    rw [List.filter_append, List.filter_append]
    simp only [List.filter_cons, hn0, hnr, Bool.not_false, if_true, List.filter_nil]
    rfl
  rw [hfilter] at h
  set q2 := q'.filter (fun r => !numErr p (1 / 10 ^ 9) r.1) with hq2
  rw [purgeExcess_spec p _ _ 1 _ rfl (by simp) (by simp [ofRows])] at h
  simp only [List.take_succ_cons, List.take_zero, List.drop_succ_cons, List.drop_zero, Option.some.injEq,
    Prod.mk.injEq, and_true] at h
  refine ⟨(w, none, none, [j]), keep p (q2 ++ [r]), h.symm, ⟨rfl, hj.1, j, rfl, fun x hx => ?_⟩, fun x hx => ?_,
    r, keep_snoc p q2 r, g, hr⟩
  · have := hj.2.2 x hx
    simpa [expRet, mul_comm] using this
  · refine hall x ?_
    have := (keep_sublist p _).subset hx
    rw [List.mem_append] at this ⊢
    rcases this with h | h
    · exact .inl (List.mem_of_mem_filter h)
    · exact .inr h

/-- **C91 (turning points).**  Every turning point left after `_solve` whose weights sum to exactly one is optimal for its
multiplier among all portfolios within the bounds, and none of them has at least its return with less variance; the first
has the largest return.  Missing for the full statement: problems with ties; turning points that sum to one only within
the tolerance of 1e-9. -/
theorem C91_turning_points_partial {p : Problem n K} (hid : p.store = id) (hb : ∀ i, p.lB i ≤ p.uB i) (hs : SymmCov p)
    (hpd : PosDef p) (hnt : NoTies p) {inv : Inv K} (hinv : inv.Sound) {fuel : ℕ} {s' : State n K}
    (h : solve p inv fuel {} = some (s', .ok ())) (w : Fin n → K) (l gamma : Option K) (f : List (Fin n))
    (hr : (w, l, gamma, f) ∈ rowsOf s') :
    (l = none ∧ Feasible p w ∧ ∀ x, Feasible p x → expRet p x ≤ expRet p w) ∨
    ∃ m, l = some m ∧ 0 ≤ m ∧ (∑ i, w i = 1 → Best p m w ∧ Efficient p w) := by
  obtain ⟨r0, q, rfl, h0, hall, -⟩ := solve_rows hid hb hpd hnt hinv h
  rw [rowsOf_ofRows, List.mem_cons] at hr
  rcases hr with rfl | hr
  · obtain ⟨h1, h2, -, -, h3⟩ := h0
    exact .inl ⟨h1, h2, h3⟩
  · obtain ⟨m, hm, hm0, hk⟩ := hall _ hr
    refine .inr ⟨m, hm, hm0, fun hsum => ?_⟩
    obtain ⟨g, hg, -⟩ := hk hsum
    have := hg.best hs hpd
    exact ⟨this, this.efficient hm0⟩

/-- **C91 (least variance).**  No portfolio within the bounds has less variance than the answer of `min_volatility`, and
the portfolio of least variance itself is among the turning points. -/
theorem C91_min_volatility_partial {p : Problem n K} (hid : p.store = id) (hb : ∀ i, p.lB i ≤ p.uB i) (hs : SymmCov p)
    (hpd : PosDef p) (hnt : NoTies p) {inv : Inv K} (hinv : inv.Sound) {fuel : ℕ} {s' : State n K} {w : Fin n → K}
    (h : minVolatility p inv fuel {} = some (s', .ok w)) :
    (∀ x, Feasible p x → var p w ≤ var p x) ∧ Near p (1 / 10 ^ 9) w ∧ ∃ v ∈ s'.w, Best p 0 v := by
  have hsolve : solve p inv fuel {} = some (s', .ok ()) := by
    unfold minVolatility at h
    rw [ensureSolved_fresh] at h
    split at h
    · cases h
    · cases h
    · rename_i s1 u hs
      simp only [Option.some.injEq, Prod.mk.injEq] at h
      rw [hs, h.1]
  obtain ⟨r0, q, rfl, h0, hall, r, hrq, g, hk⟩ := solve_rows hid hb hpd hnt hinv hsolve
  have hbest := hk.best hs hpd
  have hmem : r.1 ∈ (ofRows (r0 :: q)).w := by
    simp only [ofRows, List.map_cons, List.mem_cons, List.mem_map]
    exact .inr ⟨r, hrq, rfl⟩
  refine ⟨fun x hx => ?_, (C19_min_volatility p inv fuel _ w h).2, r.1, hmem, hbest⟩
  have h1 := (C21_least_stored p inv fuel {} _ w h).2 r.1 hmem
  have h2 := hbest.2 x hx
  simp only [zero_mul, sub_zero] at h2
  linarith

/-- **C91 (later calls).**  The same of `min_volatility` on an object that has been solved before. -/
theorem C91_min_volatility_later_partial {p : Problem n K} (hid : p.store = id) (hb : ∀ i, p.lB i ≤ p.uB i)
    (hs : SymmCov p) (hpd : PosDef p) (hnt : NoTies p) {inv : Inv K} (hinv : inv.Sound) {fuel fuel' : ℕ}
    {s s' : State n K} {w : Fin n → K} (h0 : solve p inv fuel {} = some (s, .ok ()))
    (h : minVolatility p inv fuel' s = some (s', .ok w)) : s' = s ∧ ∀ x, Feasible p x → var p w ≤ var p x := by
  obtain ⟨r0, q, rfl, -, -, r, hrq, g, hk⟩ := solve_rows hid hb hpd hnt hinv h0
  have hbest := hk.best hs hpd
  have he : s' = ofRows (r0 :: q) := by
    unfold minVolatility ensureSolved at h
    rw [if_neg (by simp [ofRows])] at h
    simp only [Option.some.injEq, Prod.mk.injEq] at h
    exact h.1.symm
  subst he
  refine ⟨rfl, fun x hx => ?_⟩
  have hmem : r.1 ∈ (ofRows (r0 :: q)).w := by
    simp only [ofRows, List.map_cons, List.mem_cons, List.mem_map]
    exact .inr ⟨r, hrq, rfl⟩
  have h1 := (C21_least_stored p inv fuel' _ _ w h).2 r.1 hmem
  have h2 := hbest.2 x hx
  simp only [zero_mul, sub_zero] at h2
  linarith

/-- Between two optimal portfolios with the same assets at their bounds everything is optimal. -/
theorem kkt_mix {p : Problem n K} {l0 l1 g0 g1 a : K} {w0 w1 : Fin n → K} {f : List (Fin n)} (h0 : Kkt p l0 g0 w0)
    (h1 : Kkt p l1 g1 w1) (ha : 0 ≤ a) (ha1 : a ≤ 1) (hf0 : ∀ i, i ∈ f → marg p w0 i = g0 + l0 * p.mean i)
    (hf1 : ∀ i, i ∈ f → marg p w1 i = g1 + l1 * p.mean i) (hoff : ∀ i, i ∉ f → w1 i = w0 i) :
    Kkt p (a * l0 + (1 - a) * l1) (a * g0 + (1 - a) * g1) (mix a w0 w1) := by
  have hm : ∀ i, marg p (mix a w0 w1) i = a * marg p w0 i + (1 - a) * marg p w1 i := by
    intro i
    simp only [marg, mix, Finset.mul_sum]
    rw [← Finset.sum_add_distrib]
    apply Finset.sum_congr rfl; intro k _; ring
  have hb1 : 0 ≤ 1 - a := by linarith
  refine ⟨⟨fun i => ?_, ?_⟩, fun i => ?_⟩
  · obtain ⟨a1, a2⟩ := h0.1.1 i
    obtain ⟨b1, b2⟩ := h1.1.1 i
    simp only [mix]
    constructor
    · nlinarith
    · nlinarith
  · simp only [mix, Finset.sum_add_distrib, ← Finset.mul_sum, h0.1.2, h1.1.2]; ring
  · rw [hm]
    by_cases hi : i ∈ f
    · rw [hf0 i hi, hf1 i hi]
      constructor <;> intro _ <;> linarith
    · have e : mix a w0 w1 i = w0 i := by simp only [mix, hoff i hi]; ring
      rw [e]
      obtain ⟨k1, k2⟩ := h0.2 i
      obtain ⟨m1, m2⟩ := h1.2 i
      rw [hoff i hi] at m1 m2
      refine ⟨fun hx => ?_, fun hx => ?_⟩
      · nlinarith [mul_le_mul_of_nonneg_left (k1 hx) ha, mul_le_mul_of_nonneg_left (m1 hx) hb1]
      · nlinarith [mul_le_mul_of_nonneg_left (k2 hx) ha, mul_le_mul_of_nonneg_left (m2 hx) hb1]

/-- The stored lines go on from one another: each sums to one, keeps the free assets of the line before, and leaves the
others where they were.  `solveStep` breaks this only when it binds an asset. -/
def GoesOn (s : State n K) : Prop :=
  ∀ r0 r1, Adjacent (rowsOf s) r0 r1 →
    ∑ i, r1.1 i = 1 ∧ (∀ i, i ∈ r0.2.2.2 → i ∈ r1.2.2.2) ∧ (∀ i, i ∉ r0.2.2.2 → r1.1 i = r0.1 i)

theorem adjacent_map {α β : Type} (f : α → β) {q : List α} {x y : β} (h : Adjacent (q.map f) x y) :
    ∃ a b, Adjacent q a b ∧ f a = x ∧ f b = y := by
  obtain ⟨u, v, h⟩ := h
  obtain ⟨q1, q2, rfl, -, h2⟩ := List.map_eq_append_iff.1 h
  obtain ⟨a, q3, rfl, rfl, h3⟩ := List.map_eq_cons_iff.1 h2
  obtain ⟨b, q4, rfl, rfl, -⟩ := List.map_eq_cons_iff.1 h3
  exact ⟨a, b, ⟨q1, q4, rfl⟩, rfl, rfl⟩

/-- **C91 (frontier).**  Where no asset is bound on the way, every point of `efficient_frontier` is efficient: no
portfolio within the bounds has at least its return with less variance.  Missing for the full statement, which fails
(`C53_frontier_efficient_false`): runs in which an asset is bound again. -/
theorem C91_frontier_partial {p : Problem n K} (hid : p.store = id) (hb : ∀ i, p.lB i ≤ p.uB i) (hs : SymmCov p)
    (hpd : PosDef p) (hnt : NoTies p) {inv : Inv K} (hinv : inv.Sound) {fuel points : ℕ} {s' : State n K}
    {ws : List (Fin n → K)} (h : efficientFrontier p inv fuel points {} = some (s', .ok ws)) (hgo : GoesOn s')
    (w : Fin n → K) (hw : w ∈ ws) : Efficient p w := by
  unfold efficientFrontier at h
  rw [ensureSolved_fresh] at h
  split at h
  · cases h
  · cases h
  rename_i s1 u hsolve
  split at h
  · cases h
  simp only [Option.some.injEq, Prod.mk.injEq, Except.ok.injEq] at h
  obtain ⟨rfl, rfl⟩ := h
  obtain ⟨w0, w1, a, hadj, ha, ha1, rfl⟩ := frontierPoints_mem _ _ _ hw
  obtain ⟨r0, q, rfl, ⟨hnone, hf0, j, hj⟩, hall, -⟩ := solve_rows hid hb hpd hnt hinv hsolve
  have hrows : rowsOf (ofRows (r0 :: q)) = r0 :: q := rowsOf_ofRows _
  obtain ⟨x, y, hxy, rfl, rfl⟩ := adjacent_map (fun r : Row n K => r.1) (by exact hadj)
  obtain ⟨hsum, hsub, hoff⟩ := hgo x y (by rw [hrows]; exact hxy)
  have hyq : y ∈ q := by
    obtain ⟨u, v, huv⟩ := hxy
    cases u with
    | nil => simp only [List.nil_append, List.cons.injEq] at huv; rw [huv.2]; simp
    | cons c u => simp only [List.cons_append, List.cons.injEq] at huv; rw [huv.2]; simp
  obtain ⟨l1, hl1, hl10, hk1⟩ := hall y hyq
  obtain ⟨g1, hg1, hm1⟩ := hk1 hsum
  have hx : (x = r0) ∨ x ∈ q := by simpa using hxy.mem.1
  rcases hx with rfl | hxq
  · have he : y.1 = x.1 := by
      have hne : ∀ i, i ≠ j → y.1 i = x.1 i := fun i hi => hoff i (by rw [hj.1]; simpa using hi)
      have hjj : y.1 j = x.1 j := by
        have h1 : ∑ i, (y.1 i - x.1 i) = 0 := by rw [Finset.sum_sub_distrib, hsum, hf0.2, sub_self]
        rw [Finset.sum_eq_single j (fun i _ hi => by rw [hne i hi, sub_self]) (by simp)] at h1
        linarith
      funext i
      by_cases hi : i = j
      · rw [hi, hjj]
      · exact hne i hi
    have hmix : mix a x.1 y.1 = y.1 := by funext i; simp only [mix, he]; ring
    rw [hmix]
    exact (hg1.best hs hpd).efficient hl10
  · obtain ⟨l0, hl0, hl00, hk0⟩ := hall x hxq
    have hsum0 : ∑ i, x.1 i = 1 := by
      obtain ⟨u, v, huv⟩ := hxy
      cases u with
      | nil =>
        simp only [List.nil_append, List.cons.injEq] at huv
        rw [← huv.1]; exact hf0.2
      | cons c u =>
        have : ∃ z, Adjacent (r0 :: q) z x := by
          rw [huv]
          have hz := List.dropLast_append_getLast (l := c :: u) (by simp)
          refine ⟨(c :: u).getLast (by simp), (c :: u).dropLast, y :: v, ?_⟩
          conv_lhs => rw [← hz]
          rw [List.append_assoc, List.singleton_append]
        obtain ⟨z, hz⟩ := this
        exact (hgo z x (by rw [hrows]; exact hz)).1
    obtain ⟨g0, hg0, hm0⟩ := hk0 hsum0
    have hk := kkt_mix (f := x.2.2.2) hg0 hg1 ha ha1 hm0 (fun i hi => hm1 i (hsub i hi)) hoff
    refine (hk.best hs hpd).efficient ?_
    have : 0 ≤ 1 - a := by linarith
    positivity

/-! The hypotheses are met: the three assets of `p3`, where an asset is bound on the way, and three uncorrelated assets,
where none is. -/

theorem three_cases {i k j : Fin 3} (h1 : i ≠ k) (h2 : i ≠ j) (h3 : k ≠ j) (P : Fin 3 → Prop) (hi : P i) (hk : P k)
    (hj : P j) : ∀ x, P x := by
  intro x
  have : x = i ∨ x = k ∨ x = j := by
    clear hi hk hj
    revert i k j x
    clear P
    decide
  rcases this with rfl | rfl | rfl <;> assumption

/-- Two of three long-only weights at a bound leave one asset holding everything. -/
theorem vertex {p : Problem 3 ℚ} (hlB : p.lB = fun _ => 0) (huB : p.uB = fun _ => 1) {w : Fin 3 → ℚ} (h : Feasible p w)
    {i k j : Fin 3} (h1 : i ≠ k) (h2 : i ≠ j) (h3 : k ≠ j) (hi : w i = p.lB i ∨ w i = p.uB i)
    (hk : w k = p.lB k ∨ w k = p.uB k) :
    w = ![1, 0, 0] ∨ w = ![0, 1, 0] ∨ w = ![0, 0, 1] := by
  have hs : w i + w k + w j = 1 := by
    rw [← h.2, Fin.sum_univ_three]
    revert h1 h2 h3
    clear hi hk h
    revert i k j
    intro i k j
    fin_cases i <;> fin_cases k <;> fin_cases j <;> intro h1 h2 h3 <;>
      first
        | exact absurd rfl h1
        | exact absurd rfl h2
        | exact absurd rfl h3
        | (simp only [Fin.zero_eta, Fin.mk_one, Fin.reduceFinMk]; done)
        | (simp only [Fin.zero_eta, Fin.mk_one, Fin.reduceFinMk]; ring)
  have hj := (h.1 j).1
  rw [hlB] at hi hk hj
  rw [huB] at hi hk
  have hall : ∀ x, w x = 0 ∨ w x = 1 := by
    refine three_cases h1 h2 h3 _ hi hk ?_
    rcases hi with hi | hi <;> rcases hk with hk | hk <;> rw [hi, hk] at hs
    · exact .inr (by linarith)
    · exact .inl (by linarith)
    · exact .inl (by linarith)
    · linarith
  have hsum := h.2
  rw [Fin.sum_univ_three] at hsum
  have ext3 : ∀ a b c, w 0 = a → w 1 = b → w 2 = c → w = ![a, b, c] := by
    intro a b c ha hb hc
    funext x; fin_cases x <;> assumption
  rcases hall 0 with h0 | h0 <;> rcases hall 1 with h1 | h1 <;> rcases hall 2 with h2 | h2 <;> rw [h0, h1, h2] at hsum <;>
    first
      | exact .inl (ext3 _ _ _ h0 h1 h2)
      | exact .inr (.inl (ext3 _ _ _ h0 h1 h2))
      | exact .inr (.inr (ext3 _ _ _ h0 h1 h2))
      | norm_num at hsum

theorem p3_marg (w : Fin 3 → ℚ) : marg p3 w 0 = 9/100 * w 0 + 4/100 * w 1 ∧
    marg p3 w 1 = 4/100 * w 0 + 4/100 * w 1 + 1/100 * w 2 ∧ marg p3 w 2 = 1/100 * w 1 + 1/100 * w 2 := by
  obtain ⟨h0, h1, h2⟩ := p3_cov w
  refine ⟨h0.trans (by ring), h1, h2.trans (by ring)⟩

theorem p3_noTies : NoTies p3 where
  apart l g w i k j _ hk h1 h2 h3 hi hk' hj := by
    have hall := three_cases h1 h2 h3 (fun x => marg p3 w x = g + l * p3.mean x) hi.2 hk'.2 hj
    obtain ⟨m0, m1, m2⟩ := p3_marg w
    have a0 := hall 0
    have a1 := hall 1
    have a2 := hall 2
    rw [m0] at a0
    rw [m1] at a1
    rw [m2] at a2
    rcases vertex rfl rfl hk.1 h1 h2 h3 hi.1 hk'.1 with rfl | rfl | rfl <;> simp [p3] at a0 a1 a2 <;> linarith
  least g w i j hk hij hi hj := by
    have m0 : marg p3 ![1/10, 0, 9/10] 0 = 9/1000 := by decide +kernel
    have m1 : marg p3 ![1/10, 0, 9/10] 1 = 13/1000 := by decide +kernel
    have m2 : marg p3 ![1/10, 0, 9/10] 2 = 9/1000 := by decide +kernel
    have hw : Kkt p3 0 (9/1000) ![1/10, 0, 9/10] := by
      refine ⟨⟨fun i => ?_, by decide +kernel⟩, fun i => ?_⟩
      · fin_cases i <;> norm_num [p3]
      · fin_cases i
        · refine ⟨fun _ => ?_, fun _ => ?_⟩ <;> simp only [Fin.zero_eta] <;> rw [m0] <;> norm_num
        · refine ⟨fun h => ?_, fun _ => ?_⟩
          · exact absurd h (by norm_num [p3])
          · simp only [Fin.mk_one]; rw [m1]; norm_num
        · refine ⟨fun _ => ?_, fun _ => ?_⟩ <;> simp only [Fin.reduceFinMk] <;> rw [m2] <;> norm_num
    have := hk.unique p3_posDef hw
    subst this
    obtain ⟨hb, hl⟩ := hi
    rw [zero_mul, add_zero] at hl
    rw [← hl] at hj
    fin_cases i
    · norm_num [p3] at hb
    · fin_cases j
      · simp only [Fin.zero_eta, Fin.mk_one] at hj; rw [m0, m1] at hj; norm_num at hj
      · exact absurd rfl hij
      · simp only [Fin.reduceFinMk, Fin.mk_one] at hj; rw [m2, m1] at hj; norm_num at hj
    · norm_num [p3] at hb

/-- `C91_min_volatility_partial` speaks about this run, in which the second asset is bound on the way. -/
example : ∃ s' w, minVolatility p3 smallInv 10 {} = some (s', .ok w) ∧ ∀ x, Feasible p3 x → var p3 w ≤ var p3 x := by
  obtain ⟨s', w, h⟩ : ∃ s' w, minVolatility p3 smallInv 10 {} = some (s', .ok w) := by
    have : (match minVolatility p3 smallInv 10 {} with | some (_, .ok _) => true | _ => false) = true := by
      decide +kernel
    split at this
    · rename_i s' w h; exact ⟨s', w, h⟩
    · cases this
  exact ⟨s', w, h, (C91_min_volatility_partial rfl (fun _ => by norm_num [p3]) p3_symm p3_posDef p3_noTies smallInv_sound h).1⟩

/-- Three uncorrelated assets, long only. -/
def pDiag : Problem 3 ℚ where
  mean := ![3/10, 2/10, 1/10]
  cov := fun i j => ![![9/100, 0, 0], ![0, 4/100, 0], ![0, 0, 1/100]] i j
  lB := fun _ => 0
  uB := fun _ => 1

theorem pDiag_marg (w : Fin 3 → ℚ) : marg pDiag w 0 = 9/100 * w 0 ∧ marg pDiag w 1 = 4/100 * w 1 ∧
    marg pDiag w 2 = 1/100 * w 2 := by
  have h0 : marg pDiag w 0 = 9/100 * w 0 + 0 * w 1 + 0 * w 2 := Fin.sum_univ_three _
  have h1 : marg pDiag w 1 = 0 * w 0 + 4/100 * w 1 + 0 * w 2 := Fin.sum_univ_three _
  have h2 : marg pDiag w 2 = 0 * w 0 + 0 * w 1 + 1/100 * w 2 := Fin.sum_univ_three _
  exact ⟨h0.trans (by ring), h1.trans (by ring), h2.trans (by ring)⟩

theorem pDiag_posDef : PosDef pDiag := by
  intro x hx
  have e : var pDiag x = (9 * x 0 ^ 2 + 4 * x 1 ^ 2 + x 2 ^ 2) / 100 := by
    have h : var pDiag x = ∑ i, x i * marg pDiag x i := rfl
    obtain ⟨m0, m1, m2⟩ := pDiag_marg x
    rw [h, Fin.sum_univ_three, m0, m1, m2]
    ring
  rw [e]
  have h0 := sq_nonneg (x 0)
  have h1 := sq_nonneg (x 1)
  have h2 := sq_nonneg (x 2)
  obtain ⟨i, hi⟩ := hx
  have hi' : 0 < x i ^ 2 := by positivity
  fin_cases i
  · simp only [Fin.zero_eta] at hi'; linarith
  · simp only [Fin.mk_one] at hi'; linarith
  · simp only [Fin.reduceFinMk] at hi'; linarith

theorem pDiag_noTies : NoTies pDiag where
  apart l g w i k j _ hk h1 h2 h3 hi hk' hj := by
    have hall := three_cases h1 h2 h3 (fun x => marg pDiag w x = g + l * pDiag.mean x) hi.2 hk'.2 hj
    obtain ⟨m0, m1, m2⟩ := pDiag_marg w
    have a0 := hall 0
    have a1 := hall 1
    have a2 := hall 2
    rw [m0] at a0
    rw [m1] at a1
    rw [m2] at a2
    rcases vertex rfl rfl hk.1 h1 h2 h3 hi.1 hk'.1 with rfl | rfl | rfl <;> simp [pDiag] at a0 a1 a2 <;> linarith
  least g w i j hk _ hi _ := by
    have hw : Kkt pDiag 0 (36/4900) ![4/49, 9/49, 36/49] := by
      refine ⟨⟨fun i => ?_, ?_⟩, fun i => ?_⟩
      · fin_cases i <;> norm_num [pDiag]
      · decide +kernel
      · have m0 : marg pDiag ![4/49, 9/49, 36/49] 0 = 36/4900 := by decide +kernel
        have m1 : marg pDiag ![4/49, 9/49, 36/49] 1 = 36/4900 := by decide +kernel
        have m2 : marg pDiag ![4/49, 9/49, 36/49] 2 = 36/4900 := by decide +kernel
        fin_cases i <;> refine ⟨fun _ => ?_, fun _ => ?_⟩ <;> simp only [Fin.zero_eta, Fin.mk_one, Fin.reduceFinMk] <;>
          first | (rw [m0]; norm_num; done) | (rw [m1]; norm_num; done) | (rw [m2]; norm_num; done)
    have := hk.unique pDiag_posDef hw
    subst this
    obtain ⟨hb, -⟩ := hi
    fin_cases i <;> norm_num [pDiag] at hb

theorem goesOn_of (s : State 3 ℚ) (h : ∀ x ∈ (rowsOf s).zip (rowsOf s).tail, ∑ i, x.2.1 i = 1 ∧
    (∀ i, i ∈ x.1.2.2.2 → i ∈ x.2.2.2.2) ∧ (∀ i, i ∉ x.1.2.2.2 → x.2.1 i = x.1.1 i)) : GoesOn s := by
  intro r0 r1 hadj
  refine h (r0, r1) ?_
  obtain ⟨a, b, hab⟩ := hadj
  rw [hab]
  clear h hab
  induction a with
  | nil => simp
  | cons c a ih =>
    cases a with
    | nil => simp
    | cons d a =>
      simp only [List.cons_append, List.tail_cons, List.zip_cons_cons, List.mem_cons] at ih ⊢
      exact .inr ih

/-- `C91_frontier_partial` speaks about this run. -/
example : ∃ s' ws, efficientFrontier pDiag smallInv 10 12 {} = some (s', .ok ws) ∧ 3 ≤ ws.length ∧
    ∀ w ∈ ws, Efficient pDiag w := by
  have hex : (match efficientFrontier pDiag smallInv 10 12 {} with
      | some (s', .ok ws) => decide (3 ≤ ws.length) && decide (∀ x ∈ (rowsOf s').zip (rowsOf s').tail, ∑ i, x.2.1 i = 1 ∧
          (∀ i, i ∈ x.1.2.2.2 → i ∈ x.2.2.2.2) ∧ (∀ i, i ∉ x.1.2.2.2 → x.2.1 i = x.1.1 i)) | _ => false) = true := by
    decide +kernel
  split at hex
  · rename_i s' ws h
    rw [Bool.and_eq_true, decide_eq_true_eq, decide_eq_true_eq] at hex
    exact ⟨s', ws, h, hex.1, C91_frontier_partial rfl (fun _ => by norm_num [pDiag])
      (by intro i j; fin_cases i <;> fin_cases j <;> rfl) pDiag_posDef pDiag_noTies smallInv_sound h
      (goesOn_of s' hex.2)⟩
  · cases hex

end Verif.Cla
