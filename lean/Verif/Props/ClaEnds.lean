import Verif.Proof.ClaEnds
import Verif.Props.ClaBest

/-! C92: the critical line algorithm ends, and finds the portfolio of least variance. -/

set_option linter.unusedSectionVars false

namespace Verif.Cla
open Verif.Py

variable {K : Type} [Field K] [LinearOrder K] [IsStrictOrderedRing K]
variable {n : ℕ}

/-- After a loop that ended well, purging cannot fail. -/
theorem purge_ok {p : Problem n K} (hid : p.store = id) (hb : ∀ i, p.lB i ≤ p.uB i) (hpd : PosDef p) (hnt : NoTies p)
    {inv : Inv K} (hinv : inv.Sound) {j : Fin n} {w : Fin n → K} (hj : InitOk p j w) {fuel : ℕ} {s2 : State n K}
    (hloop : solveLoop p inv fuel ⟨[w], [none], [none], [[j]]⟩ [j] w = some (s2, .ok ())) :
    ∃ s3 s', purgeNumErr p (1 / 10 ^ 9) (s2.w.length + 1) 0 s2 = some s3 ∧
      purgeExcess p (s3.w.length + 1) 1 s3 = some (s', .ok ()) := by
  have hs1 : (⟨[w], [none], [none], [[j]]⟩ : State n K) = ofRows [(w, none, none, [j])] := rfl
  rw [hs1] at hloop
  obtain ⟨q', r, rfl, hall, g, hr⟩ := loop_rows hid hb hpd hnt hinv fuel _ _ _ _ (by rfl)
    (by exact follows_init hpd hinv hj) hloop
  rw [purgeNumErr_spec p (1 / 10 ^ 9) _ _ 0 _ rfl (by simp) (by simp [ofRows])]
  simp only [List.take_zero, List.drop_zero, List.nil_append, Option.some.injEq, exists_eq_left', exists_and_left]
  have hn0 : numErr p (1 / 10 ^ 9) w = false := (numErr_false p _ w).2 (near_of_feasible hj.1)
  have hnr : numErr p (1 / 10 ^ 9) r.1 = false := (numErr_false p _ r.1).2 (near_of_feasible hr.1)
  have hfilter : ([(w, none, none, [j])] ++ (q' ++ [r])).filter (fun r : Row n K => !numErr p (1 / 10 ^ 9) r.1) =
      (w, none, none, [j]) :: (q'.filter (fun r => !numErr p (1 / 10 ^ 9) r.1) ++ [r]) := by
    rw [List.filter_append, List.filter_append]
    simp only [List.filter_cons, hn0, hnr, Bool.not_false, if_true, List.filter_nil]
    rfl
  rw [hfilter]
  exact ⟨_, purgeExcess_spec p _ _ 1 _ rfl (by simp) (by simp [ofRows])⟩

/-- **C92 (termination).**  `_solve` ends after finitely many iterations: with turning points or with a TypeError, and the
latter only if the weight of some free asset would not depend on the multiplier. -/
theorem C92_solve_ends_partial {p : Problem n K} (hid : p.store = id) (hb : ∀ i, p.lB i < p.uB i) (hl : ∑ i, p.lB i < 1)
    (hu : 1 ≤ ∑ i, p.uB i) (hpd : PosDef p) (hnt : NoTies p) {inv : Inv K} (hinv : inv.Sound) (hc : inv.Complete) :
    ∃ N s' r, (r = .ok () ∨ (r = .error .typeError ∧ ¬ NoFlat p)) ∧
      ∀ fuel, N ≤ fuel → solve p inv fuel {} = some (s', r) := by
  have hb' := fun i => (hb i).le
  obtain ⟨j, w, hinit, -⟩ := C17_init_optimal p hid hb' hl hu
  obtain ⟨j', hj', hj⟩ := initOk_of p hid hb' _ _ hinit
  obtain rfl : j = j' := by simpa using hj'
  obtain ⟨N, s2, r, hr, hN⟩ := init_ends hid hb hpd hnt hinv hc hj (s := ⟨[w], [none], [none], [[j]]⟩) rfl rfl
  rcases hr with rfl | ⟨rfl, hn⟩
  · obtain ⟨s3, s', h3, h'⟩ := purge_ok hid hb' hpd hnt hinv hj (hN N le_rfl)
    refine ⟨N, s', .ok (), .inl rfl, fun fuel hf => ?_⟩
    unfold solve
    rw [hinit]
    simp only [List.nil_append]
    rw [hN fuel hf]
    simp only
    rw [h3]
    exact h'
  · refine ⟨N, s2, .error .typeError, .inr ⟨rfl, hn⟩, fun fuel hf => ?_⟩
    unfold solve
    rw [hinit]
    simp only [List.nil_append]
    rw [hN fuel hf]

/-- **C92 (least variance).**  `min_volatility` answers, and no portfolio within the bounds has less variance than its
answer.  Missing: problems with ties; flat problems, which raise TypeError. -/
theorem C92_min_volatility_partial {p : Problem n K} (hid : p.store = id) (hb : ∀ i, p.lB i < p.uB i)
    (hl : ∑ i, p.lB i < 1) (hu : 1 ≤ ∑ i, p.uB i) (hs : SymmCov p) (hpd : PosDef p) (hnt : NoTies p) (hnf : NoFlat p)
    {inv : Inv K} (hinv : inv.Sound) (hc : inv.Complete) :
    ∃ N s' w, (∀ fuel, N ≤ fuel → minVolatility p inv fuel {} = some (s', .ok w)) ∧ Near p (1 / 10 ^ 9) w ∧
      ∀ x, Feasible p x → var p w ≤ var p x := by
  obtain ⟨N, s', r, hr, hN⟩ := C92_solve_ends_partial hid hb hl hu hpd hnt hinv hc
  rcases hr with rfl | ⟨-, hn⟩
  swap
  · exact absurd hnf hn
  obtain ⟨r0, q, rfl, -⟩ := solve_rows hid (fun i => (hb i).le) hpd hnt hinv (hN N le_rfl)
  obtain ⟨w, hw⟩ : ∃ w, pickBest (fun a b => decide (a < b)) ((ofRows (r0 :: q)).w.map (fun w => (w, variance p w))) = .ok w := by
    simp only [ofRows, List.map_cons, pickBest]
    exact ⟨_, rfl⟩
  have hmv : ∀ fuel, N ≤ fuel → minVolatility p inv fuel {} = some (ofRows (r0 :: q), .ok w) := by
    intro fuel hf
    unfold minVolatility
    rw [ensureSolved_fresh, hN fuel hf]
    simp only
    rw [hw]
  obtain ⟨h1, h2, -⟩ := C91_min_volatility_partial hid (fun i => (hb i).le) hs hpd hnt hinv (hmv N le_rfl)
  exact ⟨N, _, w, hmv, h2, h1⟩

/-! More fuel changes nothing once a run has ended. -/

theorem solveLoop_more (p : Problem n K) (inv : Inv K) : ∀ (a b : ℕ) (s : State n K) (f : List (Fin n)) (w : Fin n → K),
    a ≤ b → solveLoop p inv a s f w ≠ none → solveLoop p inv b s f w = solveLoop p inv a s f w := by
  intro a
  induction a with
  | zero => intro b s f w _ h; exact absurd rfl h
  | succ a ih =>
    intro b s f w hab h
    obtain ⟨b, rfl⟩ : ∃ k, b = k + 1 := ⟨b - 1, by omega⟩
    rw [solveLoop, solveLoop]
    rw [solveLoop] at h
    split
    · rfl
    · rfl
    · rename_i hs
      rw [hs] at h
      exact ih b _ _ _ (by omega) h

theorem minVolatility_more (p : Problem n K) (inv : Inv K) {a b : ℕ} (hab : a ≤ b)
    (h : minVolatility p inv a {} ≠ none) : minVolatility p inv b {} = minVolatility p inv a {} := by
  have hsolve : solve p inv b {} = solve p inv a {} := by
    unfold minVolatility at h
    rw [ensureSolved_fresh] at h
    unfold solve at h ⊢
    cases hi : initAlgo p with
    | error e => rfl
    | ok x =>
      obtain ⟨f, w⟩ := x
      rw [hi] at h
      simp only [List.nil_append] at h ⊢
      rw [solveLoop_more p inv a b _ _ _ hab]
      intro hc
      rw [hc] at h
      exact h rfl
  unfold minVolatility
  rw [ensureSolved_fresh, ensureSolved_fresh, hsolve]

/-- Three assets with different expected returns; along the line of the first two the third asset keeps its distance from
the level. -/
def pFlat : Problem 3 ℚ where
  mean := ![3/10, 2/10, 1/10]
  cov := fun i j => ![![90/1000, 15/1000, 0], ![15/1000, 40/1000, 125/1000], ![0, 125/1000, 500/1000]] i j
  lB := fun _ => 0
  uB := fun _ => 1

theorem pFlat_marg (w : Fin 3 → ℚ) : marg pFlat w 0 = 90/1000 * w 0 + 15/1000 * w 1 ∧
    marg pFlat w 1 = 15/1000 * w 0 + 40/1000 * w 1 + 125/1000 * w 2 ∧
    marg pFlat w 2 = 125/1000 * w 1 + 500/1000 * w 2 := by
  have h0 : marg pFlat w 0 = 90/1000 * w 0 + 15/1000 * w 1 + 0 * w 2 := Fin.sum_univ_three _
  have h1 : marg pFlat w 1 = 15/1000 * w 0 + 40/1000 * w 1 + 125/1000 * w 2 := Fin.sum_univ_three _
  have h2 : marg pFlat w 2 = 0 * w 0 + 125/1000 * w 1 + 500/1000 * w 2 := Fin.sum_univ_three _
  exact ⟨h0.trans (by ring), h1, h2.trans (by ring)⟩

/-- **C92 (flat), fails.**  Symmetric positive definite covariance, different expected returns, bounds that leave room, an
exact inverse: `min_volatility` raises TypeError, since `_compute_lambda` returns None (cla.py:162-163) and `_solve`
compares it with a number (cla.py:338). -/
theorem C92_flat_false : SymmCov pFlat ∧ PosDef pFlat ∧ Function.Injective pFlat.mean ∧ (∀ i, pFlat.lB i < pFlat.uB i) ∧
    (∑ i, pFlat.lB i < 1) ∧ (1 ≤ ∑ i, pFlat.uB i) ∧ smallInv.Sound ∧
    ∃ s', ∀ fuel, 10 ≤ fuel → minVolatility pFlat smallInv fuel {} = some (s', .error .typeError) := by
  refine ⟨by intro i j; fin_cases i <;> fin_cases j <;> rfl, ?_, by decide +kernel, fun _ => by norm_num [pFlat],
    by decide +kernel, by decide +kernel, smallInv_sound, ?_⟩
  · intro x hx
    have e : var pFlat x = (90 * (x 0 + x 1 / 6) ^ 2 + 500 * (x 2 + x 1 / 4) ^ 2 + (40 - 90 / 36 - 500 / 16) * x 1 ^ 2) / 1000 := by
      have h : var pFlat x = ∑ i, x i * marg pFlat x i := rfl
      obtain ⟨m0, m1, m2⟩ := pFlat_marg x
      rw [h, Fin.sum_univ_three, m0, m1, m2]
      ring
    rw [e]
    have h0 := sq_nonneg (x 0 + x 1 / 6)
    have h1 := sq_nonneg (x 2 + x 1 / 4)
    have h2 := sq_nonneg (x 1)
    by_contra hc
    have z1 : x 1 = 0 := pow_eq_zero_iff two_ne_zero |>.1 (by linarith : x 1 ^ 2 = 0)
    have z0 : x 0 + x 1 / 6 = 0 := pow_eq_zero_iff two_ne_zero |>.1 (by linarith : (x 0 + x 1 / 6) ^ 2 = 0)
    have z2 : x 2 + x 1 / 4 = 0 := pow_eq_zero_iff two_ne_zero |>.1 (by linarith : (x 2 + x 1 / 4) ^ 2 = 0)
    rw [z1] at z0 z2
    obtain ⟨i, hi⟩ := hx
    apply hi
    fin_cases i
    · simpa using z0
    · exact z1
    · simpa using z2
  · obtain ⟨s', h⟩ : ∃ s', minVolatility pFlat smallInv 10 {} = some (s', .error .typeError) := by
      have : (match minVolatility pFlat smallInv 10 {} with | some (_, .error .typeError) => true | _ => false) = true := by
        decide +kernel
      split at this
      · rename_i s' h; exact ⟨s', h⟩
      · cases this
    refine ⟨s', fun fuel hf => ?_⟩
    rw [← h]
    exact minVolatility_more pFlat smallInv hf (by rw [h]; simp)

/-- Inversion by determinants. -/
noncomputable def exactInv (K : Type) [Field K] [LinearOrder K] : Inv K := fun _ A => if A.det = 0 then .error .linAlg else .ok A⁻¹

theorem exactInv_sound : (exactInv K).Sound := by
  intro m A B h
  unfold exactInv at h
  split at h
  · cases h
  · rename_i hd
    cases h
    have hu : IsUnit A.det := isUnit_iff_ne_zero.2 hd
    have h1 := Matrix.mul_nonsing_inv A hu
    have h2 := Matrix.nonsing_inv_mul A hu
    refine ⟨fun i j => ?_, fun i j => ?_⟩
    · have := congrFun (congrFun h1 i) j
      rwa [Matrix.mul_apply, Matrix.one_apply] at this
    · have := congrFun (congrFun h2 i) j
      rwa [Matrix.mul_apply, Matrix.one_apply] at this

theorem exactInv_complete : (exactInv K).Complete := by
  intro m A h
  exact ⟨A⁻¹, by unfold exactInv; rw [if_neg h]⟩

/-! The hypotheses of `C92_min_volatility_partial` are met by `p3`. -/

theorem two_of_three : ∀ F : Finset (Fin 3), 2 ≤ F.card → (0 ∈ F ∧ 1 ∈ F) ∨ (0 ∈ F ∧ 2 ∈ F) ∨ (1 ∈ F ∧ 2 ∈ F) := by
  decide

theorem p3_noFlat : NoFlat p3 := by
  intro F i d g hF hi hoff hsum hlev h0
  obtain ⟨m0, m1, m2⟩ := p3_marg d
  rw [Fin.sum_univ_three] at hsum
  have l0 : 0 ∈ F → 9/100 * d 0 + 4/100 * d 1 = g + 3/10 := fun h => m0 ▸ hlev 0 h
  have l1 : 1 ∈ F → 4/100 * d 0 + 4/100 * d 1 + 1/100 * d 2 = g + 2/10 := fun h => m1 ▸ hlev 1 h
  have l2 : 2 ∈ F → 1/100 * d 1 + 1/100 * d 2 = g + 1/10 := fun h => m2 ▸ hlev 2 h
  by_cases f0 : 0 ∈ F <;> by_cases f1 : 1 ∈ F <;> by_cases f2 : 2 ∈ F
  · have a0 := l0 f0
    have a1 := l1 f1
    have a2 := l2 f2
    have ei : i = 0 ∨ i = 1 ∨ i = 2 := by fin_cases i <;> simp
    rcases ei with rfl | rfl | rfl <;> linarith
  · have a0 := l0 f0
    have a1 := l1 f1
    have a2 := hoff 2 f2
    have ei : i = 0 ∨ i = 1 ∨ i = 2 := by fin_cases i <;> simp
    rcases ei with rfl | rfl | rfl
    · linarith
    · linarith
    · exact f2 hi
  · have a0 := l0 f0
    have a1 := hoff 1 f1
    have a2 := l2 f2
    have ei : i = 0 ∨ i = 1 ∨ i = 2 := by fin_cases i <;> simp
    rcases ei with rfl | rfl | rfl
    · linarith
    · exact f1 hi
    · linarith
  · rcases two_of_three F hF with h | h | h <;> simp_all
  · have a0 := hoff 0 f0
    have a1 := l1 f1
    have a2 := l2 f2
    have ei : i = 0 ∨ i = 1 ∨ i = 2 := by fin_cases i <;> simp
    rcases ei with rfl | rfl | rfl
    · exact f0 hi
    · linarith
    · linarith
  · rcases two_of_three F hF with h | h | h <;> simp_all
  · rcases two_of_three F hF with h | h | h <;> simp_all
  · rcases two_of_three F hF with h | h | h <;> simp_all

example : ∃ N s' w, (∀ fuel, N ≤ fuel → minVolatility p3 (exactInv ℚ) fuel {} = some (s', .ok w)) ∧
    ∀ x, Feasible p3 x → var p3 w ≤ var p3 x := by
  obtain ⟨N, s', w, h, -, h'⟩ := C92_min_volatility_partial (p := p3) rfl (fun _ => by norm_num [p3])
    (by decide +kernel) (by decide +kernel) p3_symm p3_posDef p3_noTies p3_noFlat exactInv_sound exactInv_complete
  exact ⟨N, s', w, h, h'⟩

end Verif.Cla
