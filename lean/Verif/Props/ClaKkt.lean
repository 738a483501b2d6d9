import Verif.Proof.ClaKkt
import Verif.Props.Cla

/-! C20, C21: sub-problem optimality and least variance. -/

set_option linter.unusedSectionVars false

namespace Verif.Cla
open Verif.Py

variable {K : Type} [Field K] [LinearOrder K] [IsStrictOrderedRing K]
variable {n : ℕ}

/-- `W` is the unique minimiser of half variance minus `l` times return among the fully invested
portfolios that agree with `w0` outside `f`. -/
def SubOptimal (p : Problem n K) (f : List (Fin n)) (l : K) (w0 W : Fin n → K) : Prop :=
  (∀ i, i ∉ f → W i = w0 i) ∧ ∑ i, W i = 1 ∧
  ∀ x : Fin n → K, (∀ i, i ∉ f → x i = w0 i) → ∑ i, x i = 1 →
    var p W / 2 - l * expRet p W ≤ var p x / 2 - l * expRet p x ∧
    (var p W / 2 - l * expRet p W = var p x / 2 - l * expRet p x → x = W)

theorem subOptimal_of_kkt (p : Problem n K) (hs : SymmCov p) (hpd : PosDef p) (f : List (Fin n))
    (l g : K) (w0 W : Fin n → K) (hb : ∀ i, i ∉ f → W i = w0 i) (hsum : ∑ i, W i = 1)
    (hk : ∀ i, i ∈ f → ∑ j, p.cov i j * W j = g + l * p.mean i) : SubOptimal p f l w0 W := by
  refine ⟨hb, hsum, fun x hx hxs => ?_⟩
  set d : Fin n → K := fun i => x i - W i with hd
  have hxe : x = fun i => W i + d i := by funext i; simp [hd]
  have hd0 : ∀ i, i ∉ f → d i = 0 := fun i hi => by simp [hd, hx i hi, hb i hi]
  have hds : ∑ i, d i = 0 := by simp [hd, Finset.sum_sub_distrib, hxs, hsum]
  have hcross : ∑ i, d i * ∑ j, p.cov i j * W j = l * expRet p d := by
    have : ∀ i, d i * ∑ j, p.cov i j * W j = g * d i + l * (p.mean i * d i) := by
      intro i
      by_cases hi : i ∈ f
      · rw [hk i hi]; ring
      · rw [hd0 i hi]; ring
    simp only [this, Finset.sum_add_distrib, ← Finset.mul_sum, hds, expRet]
    ring
  have hv := var_add p hs W d
  have hr := expRet_add p W d
  rw [hcross] at hv
  rw [hxe, hv, hr]
  have hdnn : 0 ≤ var p d := by
    by_cases h0 : ∃ i, d i ≠ 0
    · exact (hpd d h0).le
    · push Not at h0
      simp [var, h0]
  constructor
  · linarith
  · intro he
    have hz : var p d = 0 := by linarith
    funext i
    by_contra hne
    have : d i ≠ 0 := by
      intro h; apply hne; simp [h]
    have := hpd d ⟨i, this⟩
    linarith

/-- The free weights computed for a multiplier are those of the sub-problem's unique optimum. -/
theorem C20_free_weights (p : Problem n K) (hs : SymmCov p) (hpd : PosDef p) (inv : Inv K)
    (hinv : inv.Sound) (f : List (Fin n)) (hf : f.Nodup) (hne : f ≠ [])
    (Finv : Matrix (Fin f.length) (Fin f.length) K) (hF : inv f.length (covF p f) = .ok Finv)
    (wl : Fin n → K) (l : K) (W : Fin n → K)
    (hWf : ∀ a, W (f.get a) = (computeW p f Finv (meanOf p f) wl l).1 a)
    (hWb : ∀ i, i ∉ f → W i = wl i) : SubOptimal p f l wl W := by
  have hi := (hinv _ _ _ hF).1
  have hg2 := (onesDot_pos p hpd f hf hne Finv hi).ne'
  obtain ⟨h1, h2⟩ := computeW_kkt p f hf Finv hi hg2 (meanOf p f) wl l W hWf hWb
  refine subOptimal_of_kkt p hs hpd f l (computeW p f Finv (meanOf p f) wl l).2 wl W hWb h1 (fun i him => ?_)
  obtain ⟨a, ha⟩ := List.get_of_mem him
  rw [← ha]
  exact h2 a

/-- The weight of a free asset as a function of the multiplier is affine with slope `-c / c1`. -/
theorem computeW_affine (p : Problem n K) (f : List (Fin n)) (Finv : Matrix (Fin f.length) (Fin f.length) K)
    (meanF : Fin f.length → K) (wl : Fin n → K) (l : K) (i : Fin f.length)
    (hg2 : onesDot Finv (fun _ => 1) ≠ 0) :
    onesDot Finv (fun _ => 1) * (computeW p f Finv meanF wl l).1 i =
      (1 - ((getB f).map wl).sum + ∑ a, apply Finv (crossTerm p f wl) a) * apply Finv (fun _ => 1) i
      - onesDot Finv (fun _ => 1) * apply Finv (crossTerm p f wl) i
      - l * (-onesDot Finv (fun _ => 1) * apply Finv meanF i + onesDot Finv meanF * apply Finv (fun _ => 1) i) := by
  rw [computeW_eq]
  simp only [gammaOf]
  field_simp
  ring

theorem computeLambda_eq (p : Problem n K) (f : List (Fin n)) (Finv : Matrix (Fin f.length) (Fin f.length) K)
    (meanF : Fin f.length → K) (wl : Fin n → K) (i : Fin f.length) (bi : BoundArg K) (l b : K)
    (h : computeLambda p f Finv meanF wl i bi = some (l, b)) :
    ∃ c, c = -onesDot Finv (fun _ => 1) * apply Finv meanF i + onesDot Finv meanF * apply Finv (fun _ => 1) i ∧
      c ≠ 0 ∧ b = (match bi with | .value x => x | .pair lo up => if 0 < c then up else lo) ∧
      l * c = (1 - ((getB f).map wl).sum + ∑ a, apply Finv (crossTerm p f wl) a) * apply Finv (fun _ => 1) i
        - onesDot Finv (fun _ => 1) * (b + apply Finv (crossTerm p f wl) i) := by
  unfold computeLambda at h
  simp only at h
  split at h
  · cases h
  rename_i hc
  refine ⟨_, rfl, hc, ?_⟩
  split at h
  · rename_i hB
    have hcz : crossTerm p f wl = fun _ => 0 := by funext a; simp [crossTerm, hB]
    have ha : ∀ a, apply Finv (fun _ => (0 : K)) a = 0 := by intro a; simp [apply]
    simp only [Option.some.injEq, Prod.mk.injEq] at h
    obtain ⟨rfl, rfl⟩ := h
    refine ⟨by cases bi <;> rfl, ?_⟩
    rw [div_mul_cancel₀ _ hc]
    simp only [hB, hcz, ha, List.map_nil, List.sum_nil, Finset.sum_const_zero]
    ring
  · simp only [Option.some.injEq, Prod.mk.injEq] at h
    obtain ⟨rfl, rfl⟩ := h
    refine ⟨by cases bi <;> rfl, ?_⟩
    rw [div_mul_cancel₀ _ hc]

/-- The multiplier computed for an asset and a bound value is exactly the one at which that asset's
weight takes the value. -/
theorem C20_multiplier (p : Problem n K) (hpd : PosDef p) (inv : Inv K)
    (hinv : inv.Sound) (f : List (Fin n)) (hf : f.Nodup) (hne : f ≠ [])
    (Finv : Matrix (Fin f.length) (Fin f.length) K) (hF : inv f.length (covF p f) = .ok Finv)
    (wl : Fin n → K) (i : Fin f.length) (bi : BoundArg K) (l b : K)
    (h : computeLambda p f Finv (meanOf p f) wl i bi = some (l, b)) (l' : K) :
    (computeW p f Finv (meanOf p f) wl l').1 i = b ↔ l' = l := by
  have hi := (hinv _ _ _ hF).1
  have hg2 := (onesDot_pos p hpd f hf hne Finv hi).ne'
  obtain ⟨c, hc, hc0, -, hl⟩ := computeLambda_eq p f Finv _ wl i bi l b h
  have ha := computeW_affine p f Finv (meanOf p f) wl l' i hg2
  rw [← hc] at ha
  constructor
  · intro he
    rw [he] at ha
    have : l' * c = l * c := by rw [hl]; linarith
    exact mul_right_cancel₀ hc0 this
  · rintro rfl
    rw [hl] at ha
    apply mul_left_cancel₀ hg2
    rw [ha]; ring

/-- Given both bounds, the multiplier is the one below which the asset would leave its interval, at the
bound it leaves through. -/
theorem C20_multiplier_leaves (p : Problem n K) (hpd : PosDef p) (inv : Inv K)
    (hinv : inv.Sound) (f : List (Fin n)) (hf : f.Nodup) (hne : f ≠ [])
    (Finv : Matrix (Fin f.length) (Fin f.length) K) (hF : inv f.length (covF p f) = .ok Finv)
    (wl : Fin n → K) (i : Fin f.length) (lo up l b : K)
    (h : computeLambda p f Finv (meanOf p f) wl i (.pair lo up) = some (l, b)) (l' : K) (hl' : l' < l) :
    (b = up ∧ up < (computeW p f Finv (meanOf p f) wl l').1 i) ∨
    (b = lo ∧ (computeW p f Finv (meanOf p f) wl l').1 i < lo) := by
  have hi := (hinv _ _ _ hF).1
  have hg := onesDot_pos p hpd f hf hne Finv hi
  obtain ⟨c, hc, hc0, hb, hl⟩ := computeLambda_eq p f Finv _ wl i _ l b h
  have ha := computeW_affine p f Finv (meanOf p f) wl l' i hg.ne'
  rw [← hc] at ha
  have key : onesDot Finv (fun _ => 1) * ((computeW p f Finv (meanOf p f) wl l').1 i - b) = (l - l') * c := by
    rw [mul_sub, ha, sub_mul, hl]; ring
  simp only at hb
  rcases lt_or_gt_of_ne hc0 with hneg | hpos
  · right
    rw [if_neg (not_lt.2 hneg.le)] at hb
    refine ⟨hb, ?_⟩
    have : (l - l') * c < 0 := mul_neg_of_pos_of_neg (by linarith) hneg
    rw [← key] at this
    have := neg_of_mul_neg_right this hg.le
    rw [hb] at this
    linarith
  · left
    rw [if_pos hpos] at hb
    refine ⟨hb, ?_⟩
    have : 0 < (l - l') * c := mul_pos (by linarith) hpos
    rw [← key] at this
    have := (mul_pos_iff_of_pos_left hg).1 this
    rw [hb] at this
    linarith

/-! The stored turning points -/

theorem writeFree_get (p : Problem n K) (hid : p.store = id) (f : List (Fin n)) (hf : f.Nodup)
    (wF : Fin f.length → K) (w : Fin n → K) :
    (∀ a, writeFree p f wF w (f.get a) = wF a) ∧ ∀ i, i ∉ f → writeFree p f wF w i = w i := by
  have key : ∀ (l : List (Fin f.length)) (w : Fin n → K), l.Nodup →
      (∀ a, l.foldl (fun w a => Function.update w (f.get a) (p.store (wF a))) w (f.get a) =
        if a ∈ l then wF a else w (f.get a)) ∧
      (∀ i, i ∉ f → l.foldl (fun w a => Function.update w (f.get a) (p.store (wF a))) w i = w i) := by
    intro l
    induction l with
    | nil => intro w _; simp
    | cons c l ih =>
      intro w hnd
      rw [List.nodup_cons] at hnd
      obtain ⟨h1, h2⟩ := ih (Function.update w (f.get c) (p.store (wF c))) hnd.2
      constructor
      · intro a
        rw [List.foldl_cons, h1]
        by_cases hac : a = c
        · subst hac
          simp [hnd.1, hid]
        · have : f.get a ≠ f.get c := fun he => hac (hf.get_inj_iff.1 he)
          simp only [List.mem_cons, hac, false_or, Function.update_of_ne this]
      · intro i hi
        rw [List.foldl_cons, h2 i hi, Function.update_of_ne]
        rintro rfl
        exact hi (List.get_mem f c)
  obtain ⟨h1, h2⟩ := key (List.finRange f.length) w (List.nodup_finRange _)
  exact ⟨fun a => by rw [writeFree, h1]; simp, h2⟩

theorem caseA_mem (p : Problem n K) (inv : Inv K) (f : List (Fin n)) (wl : Fin n → K)
    (r : Option (K × Fin n × K)) (h : caseA p inv f wl = .ok r) (l : K) (i : Fin n) (b : K)
    (hr : r = some (l, i, b)) : i ∈ f := by
  unfold caseA at h
  split at h
  · simp only [bind, Except.bind] at h
    split at h
    · cases h
    · rename_i Finv _
      simp only [pure, Except.pure, Except.ok.injEq] at h
      have key : ∀ (js : List (Fin f.length)) (best : Option (K × Fin n × K)),
          (∀ x, best = some x → x.2.1 ∈ f) → ∀ x,
          js.foldl (fun best j =>
            match computeLambda p f Finv (meanOf p f) wl j (.pair (p.lB (f.get j)) (p.uB (f.get j))) with
            | none => best
            | some (l, b) => if infGt (some l) (best.map (·.1)) then some (l, f.get j, b) else best) best
            = some x → x.2.1 ∈ f := by
        intro js
        induction js with
        | nil => intro best hb x hx; exact hb x hx
        | cons j js ih =>
          intro best hb
          rw [List.foldl_cons]
          apply ih
          intro x hx
          split at hx
          · exact hb x hx
          · split at hx
            · cases hx; exact List.get_mem f j
            · exact hb x hx
      rw [hr] at h
      exact key _ none (by intro x hx; cases hx) _ h
  · simp only [pure, Except.pure, Except.ok.injEq] at h
    rw [← h] at hr
    cases hr

theorem caseB_not_mem (p : Problem n K) (inv : Inv K) (f : List (Fin n)) (wl : Fin n → K) (last : Option K)
    (r : Option (K × Fin n)) (h : caseB p inv f wl last = .ok r) (l : K) (i : Fin n)
    (hr : r = some (l, i)) : i ∉ f := by
  unfold caseB at h
  split at h
  · have key : ∀ (js : List (Fin n)) (best : Option (K × Fin n)), (∀ j ∈ js, j ∉ f) →
        (∀ x, best = some x → x.2 ∉ f) → ∀ r, js.foldlM (m := Except PyErr) (fun best i => do
            let f' := f ++ [i]
            let Finv ← inv f'.length (covF p f')
            match computeLambda p f' Finv (meanOf p f') wl ⟨f.length, by simp [f']⟩ (.value (wl i)) with
            | none => .error .typeError
            | some (l, _) =>
              let below := match last with | none => true | some x => decide (l < x)
              pure (if below && infGt (some l) (best.map (·.1)) then some (l, i) else best)) best = .ok r →
          ∀ x, r = some x → x.2 ∉ f := by
      intro js
      induction js with
      | nil =>
        intro best _ hb r hr x hx
        simp only [List.foldlM_nil, pure, Except.pure, Except.ok.injEq] at hr
        exact hb x (hr.trans hx)
      | cons j js ih =>
        intro best hjs hb r hr
        rw [List.foldlM_cons] at hr
        simp only [bind, Except.bind] at hr
        split at hr
        · cases hr
        · rename_i best' hstep
          refine ih best' (fun k hk => hjs k (List.mem_cons_of_mem _ hk)) ?_ r hr
          intro x hx
          split at hstep
          · cases hstep
          · split at hstep
            · cases hstep
            · simp only [pure, Except.pure, Except.ok.injEq] at hstep
              rw [← hstep] at hx
              generalize (_ && _ : Bool) = c at hx
              cases c
              · exact hb x hx
              · cases hx; exact hjs j (by simp)
    exact key _ none (by intro j hj; simpa [getB] using hj) (by intro x hx; cases hx) r h _ hr
  · simp only [pure, Except.pure, Except.ok.injEq] at h
    rw [← h] at hr
    cases hr

/-- One iteration of the main loop, not counting iterations that bound an asset: the stored turning point
is the unique optimum of the sub-problem with its free set and its multiplier.  Missing for the full
statement: iterations that bound an asset, see `C53_frontier_efficient_false`. -/
theorem C20_step_partial (p : Problem n K) (hid : p.store = id) (hs : SymmCov p) (hpd : PosDef p) (inv : Inv K)
    (hinv : inv.Sound) (s : State n K) (f : List (Fin n)) (w : Fin n → K) (hlast : s.w.getLast? = some w)
    (hf : f.Nodup) (hne : f ≠ []) (s' : State n K) (f' : List (Fin n)) (w' : Fin n → K) (b : Bool)
    (h : solveStep p inv s f w = .ok (s', f', w', b)) (hgrow : f.length ≤ f'.length) :
    ∃ l, s'.ls.getLast? = some (some l) ∧ s'.w.getLast? = some w' ∧ s'.f.getLast? = some f' ∧
      (b = true ↔ l = 0) ∧ SubOptimal p f' l w w' := by
  unfold solveStep at h
  simp only [bind, Except.bind, hlast, Option.getD_some] at h
  split at h
  · cases h
  rename_i lin hlin
  split at h
  · cases h
  rename_i lout hlout
  split at h
  · split at h
    · cases h
    · rename_i Finv hF
      simp only [pure, Except.pure, Except.ok.injEq, Prod.mk.injEq] at h
      obtain ⟨rfl, rfl, rfl, rfl⟩ := h
      refine ⟨0, by simp, by simp, by simp, by simp, ?_⟩
      obtain ⟨hget, hoff⟩ := writeFree_get p hid f hf (computeW p f Finv (fun _ => 0) w 0).1 w
      have hi := (hinv _ _ _ hF).1
      have hg2 := (onesDot_pos p hpd f hf hne Finv hi).ne'
      obtain ⟨h1, h2⟩ := computeW_kkt p f hf Finv hi hg2 (fun _ => 0) w 0 _ hget hoff
      refine subOptimal_of_kkt p hs hpd f 0 (computeW p f Finv (fun _ => 0) w 0).2 w _ hoff h1 (fun i him => ?_)
      obtain ⟨a, ha⟩ := List.get_of_mem him
      rw [← ha]
      simpa using h2 a
  · rename_i hnn
    have hcases : (∃ li ii bi, lin = some (li, ii, bi) ∧
          chooseLambda p lin lout f w = (li, f.erase ii, Function.update w ii (p.store bi))) ∨
        (∃ lo io, lout = some (lo, io) ∧ chooseLambda p lin lout f w = (lo, f ++ [io], w)) := by
      unfold chooseLambda
      split
      · rename_i hgt
        rcases lin with _ | ⟨li, ii, bi⟩
        · simp [infGt] at hgt
        · exact .inl ⟨li, ii, bi, rfl, rfl⟩
      · rename_i hgt
        rcases lout with _ | ⟨lo, io⟩
        · rcases lin with _ | ⟨li, ii, bi⟩
          · simp [negOrNone] at hnn
          · simp [infGt] at hgt
        · exact .inr ⟨lo, io, rfl, rfl⟩
    obtain ⟨l, fn, w0, hd⟩ : ∃ l fn w0, chooseLambda p lin lout f w = (l, fn, w0) := ⟨_, _, _, rfl⟩
    rw [hd] at h hcases
    simp only at h
    split at h
    · cases h
    · rename_i Finv hF
      simp only [pure, Except.pure, Except.ok.injEq, Prod.mk.injEq] at h
      obtain ⟨rfl, rfl, rfl, rfl⟩ := h
      rcases hcases with ⟨li, ii, bi, rfl, he⟩ | ⟨lo, io, rfl, he⟩
      · exfalso
        have hm := caseA_mem p inv f w _ hlin li ii bi rfl
        simp only [Prod.mk.injEq] at he
        obtain ⟨-, rfl, -⟩ := he
        rw [List.length_erase_of_mem hm] at hgrow
        have := List.length_pos_of_mem hm
        omega
      · simp only [Prod.mk.injEq] at he
        obtain ⟨rfl, rfl, rfl⟩ := he
        have hio : io ∉ f := caseB_not_mem p inv f w0 _ _ hlout l io rfl
        have hf' : (f ++ [io]).Nodup := by
          rw [List.nodup_append]
          refine ⟨hf, by simp, ?_⟩
          intro a ha b hb hab
          simp only [List.mem_singleton] at hb
          exact hio (by rw [← hb, ← hab]; exact ha)
        refine ⟨l, by simp, by simp, by simp, by simp, ?_⟩
        obtain ⟨hget, hoff⟩ := writeFree_get p hid (f ++ [io]) hf'
          (computeW p (f ++ [io]) Finv (meanOf p (f ++ [io])) w0 l).1 w0
        exact C20_free_weights p hs hpd inv hinv (f ++ [io]) hf' (by simp) Finv hF w0 l _ hget hoff

/-! The hypotheses are met by the three-asset example. -/

theorem p3_cov (x : Fin 3 → ℚ) :
    (∑ j, p3.cov 0 j * x j = 9/100 * x 0 + 4/100 * x 1 + 0 * x 2) ∧
    (∑ j, p3.cov 1 j * x j = 4/100 * x 0 + 4/100 * x 1 + 1/100 * x 2) ∧
    (∑ j, p3.cov 2 j * x j = 0 * x 0 + 1/100 * x 1 + 1/100 * x 2) :=
  ⟨Fin.sum_univ_three _, Fin.sum_univ_three _, Fin.sum_univ_three _⟩

theorem p3_symm : SymmCov p3 := by
  intro i j; fin_cases i <;> fin_cases j <;> rfl

theorem p3_posDef : PosDef p3 := by
  intro x hx
  have e : var p3 x = ((x 1 + x 2) ^ 2 + 3 * (x 1 + 4/3 * x 0) ^ 2 + 11/3 * x 0 ^ 2) / 100 := by
    unfold var
    rw [Fin.sum_univ_three, (p3_cov x).1, (p3_cov x).2.1, (p3_cov x).2.2]
    ring
  rw [e]
  by_contra hc
  have h1 := sq_nonneg (x 1 + x 2)
  have h2 := sq_nonneg (x 1 + 4/3 * x 0)
  have h3 := sq_nonneg (x 0)
  have z0 : x 0 = 0 := by
    have : x 0 ^ 2 = 0 := by linarith
    exact pow_eq_zero_iff (two_ne_zero) |>.1 this
  have z1 : x 1 = 0 := by
    have : (x 1 + 4/3 * x 0) ^ 2 = 0 := by linarith
    have := pow_eq_zero_iff (two_ne_zero) |>.1 this
    rw [z0] at this; linarith
  have z2 : x 2 = 0 := by
    have : (x 1 + x 2) ^ 2 = 0 := by linarith
    have := pow_eq_zero_iff (two_ne_zero) |>.1 this
    rw [z1] at this; linarith
  obtain ⟨i, hi⟩ := hx
  apply hi
  fin_cases i
  · exact z0
  · exact z1
  · exact z2

/-- A sub-problem of the example: assets 0 and 1 free, multiplier 1/4, asset 2 at zero. -/
example : (match smallInv 2 (covF p3 [0, 1]) with
    | .ok Finv => decide ((computeW p3 [0, 1] Finv (meanOf p3 [0, 1]) (fun _ => 0) (1/4)).1 = fun a => if a = 0 then 1/2 else 1/2)
    | .error _ => false) = true := by decide +kernel

/-- A multiplier of the example: asset 1 (second free asset) reaches its upper bound at multiplier 0. -/
example : (match smallInv 2 (covF p3 [0, 1]) with
    | .ok Finv => decide (computeLambda p3 [0, 1] Finv (meanOf p3 [0, 1]) (fun _ => 0) 1 (.pair 0 1) = some (0, 1))
    | .error _ => false) = true := by decide +kernel

/-! ### C21 -/

theorem variance_eq (p : Problem n K) (w : Fin n → K) : variance p w = var p w := by
  unfold variance var
  apply Finset.sum_congr rfl; intro i _
  rw [Finset.mul_sum]
  apply Finset.sum_congr rfl; intro j _
  ring

/-- First-order conditions of least variance within the bounds: some level `g` separates the marginal
variances of the assets that could be sold from those that could be bought. -/
def FirstOrder (p : Problem n K) (w : Fin n → K) : Prop :=
  ∃ g, ∀ i, (p.lB i < w i → ∑ j, p.cov i j * w j ≤ g) ∧ (w i < p.uB i → g ≤ ∑ j, p.cov i j * w j)

theorem firstOrder_optimal (p : Problem n K) (hs : SymmCov p) (hpsd : PosSemidef p) (w : Fin n → K)
    (hw : Feasible p w) (hfo : FirstOrder p w) (x : Fin n → K) (hx : Feasible p x) : var p w ≤ var p x := by
  obtain ⟨g, hg⟩ := hfo
  set d : Fin n → K := fun i => x i - w i with hd
  have hxe : x = fun i => w i + d i := by funext i; simp [hd]
  have hds : ∑ i, d i = 0 := by simp [hd, Finset.sum_sub_distrib, hx.2, hw.2]
  have hcross : 0 ≤ ∑ i, d i * ∑ j, p.cov i j * w j := by
    have h1 : ∑ i, d i * g ≤ ∑ i, d i * ∑ j, p.cov i j * w j := by
      apply Finset.sum_le_sum
      intro i _
      rcases lt_trichotomy (d i) 0 with h | h | h
      · have : p.lB i < w i := lt_of_le_of_lt (hx.1 i).1 (by simp only [hd] at h; linarith)
        exact mul_le_mul_of_nonpos_left ((hg i).1 this) h.le
      · simp [h]
      · have : w i < p.uB i := lt_of_lt_of_le (by simp only [hd] at h; linarith) (hx.1 i).2
        exact mul_le_mul_of_nonneg_left ((hg i).2 this) h.le
    rw [← Finset.sum_mul, hds, zero_mul] at h1
    exact h1
  have hv := var_add p hs w d
  rw [hxe, hv]
  have := hpsd d
  linarith

/-- The returned portfolio has the least variance among the stored turning points. -/
theorem C21_least_stored (p : Problem n K) (inv : Inv K) (fuel : ℕ) (s s' : State n K) (w : Fin n → K)
    (h : minVolatility p inv fuel s = some (s', .ok w)) : w ∈ s'.w ∧ ∀ v ∈ s'.w, var p w ≤ var p v := by
  unfold minVolatility at h
  split at h
  · cases h
  · cases h
  simp only [Option.some.injEq, Prod.mk.injEq] at h
  obtain ⟨rfl, hpick⟩ := h
  obtain ⟨v, hv, hmin⟩ := pickBest_min _ _ hpick
  rw [List.mem_map] at hv
  obtain ⟨w', hw', he⟩ := hv
  cases he
  refine ⟨hw', fun u hu => ?_⟩
  have := hmin (u, variance p u) (List.mem_map.2 ⟨u, hu, rfl⟩)
  simpa [variance_eq] using this

/-- If a stored turning point is feasible and satisfies the first-order conditions, the answer is at
least as good as every feasible portfolio. -/
theorem C21_global (p : Problem n K) (hs : SymmCov p) (hpsd : PosSemidef p) (inv : Inv K) (fuel : ℕ)
    (s s' : State n K) (w : Fin n → K) (h : minVolatility p inv fuel s = some (s', .ok w))
    (v : Fin n → K) (hv : v ∈ s'.w) (hfeas : Feasible p v) (hfo : FirstOrder p v)
    (x : Fin n → K) (hx : Feasible p x) : var p w ≤ var p x :=
  ((C21_least_stored p inv fuel s s' w h).2 v hv).trans (firstOrder_optimal p hs hpsd v hfeas hfo x hx)

/-- The hypotheses hold for the last turning point of the example. -/
example : (match minVolatility p3 smallInv 10 {} with
      | some (s', .ok _) => decide ((s'.w.map (fun w => (List.finRange 3).map w)).getLast? = some [1/10, 0, 9/10])
      | _ => false) = true ∧
    Feasible p3 ![1/10, 0, 9/10] ∧ FirstOrder p3 ![1/10, 0, 9/10] := by
  refine ⟨by decide +kernel, ⟨by decide +kernel, by decide +kernel⟩, 9/1000, by decide +kernel⟩

end Verif.Cla
