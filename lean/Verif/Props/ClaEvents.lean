import Verif.Props.ClaKkt

/-! C20: which event the critical line algorithm takes next. -/

set_option linter.unusedSectionVars false

namespace Verif.Cla
open Verif.Py

variable {K : Type} [Field K] [LinearOrder K] [IsStrictOrderedRing K]
variable {n : ℕ}

/-- A fold that keeps the entry with the largest key. -/
theorem foldl_best {α β : Type} (f : α → Option (K × β)) (l : List α) (init : Option (K × β)) :
    let r := l.foldl (fun best a => match f a with
      | none => best
      | some e => if infGt (some e.1) (best.map (·.1)) then some e else best) init
    (r = init ∨ ∃ a ∈ l, f a = r ∧ r ≠ none) ∧
    (∀ e, init = some e → ∃ e', r = some e' ∧ e.1 ≤ e'.1) ∧
    ∀ a ∈ l, ∀ e, f a = some e → ∃ e', r = some e' ∧ e.1 ≤ e'.1 := by
  induction l generalizing init with
  | nil => exact ⟨.inl rfl, fun e h => ⟨e, h, le_rfl⟩, fun a h => absurd h List.not_mem_nil⟩
  | cons a l ih =>
    set nxt : Option (K × β) := match f a with
      | none => init
      | some e => if infGt (some e.1) (init.map (·.1)) then some e else init with hn
    have key : (nxt = init ∨ (f a = nxt ∧ nxt ≠ none)) ∧
        (∀ e, init = some e → ∃ e', nxt = some e' ∧ e.1 ≤ e'.1) ∧
        ∀ e, f a = some e → ∃ e', nxt = some e' ∧ e.1 ≤ e'.1 := by
      cases hfa : f a with
      | none =>
        have : nxt = init := by rw [hn, hfa]
        rw [this]
        exact ⟨.inl rfl, fun e h => ⟨e, h, le_rfl⟩, fun e h => by cases h⟩
      | some e =>
        cases hi : init with
        | none =>
          have : nxt = some e := by rw [hn, hfa, hi]; rfl
          rw [this]
          exact ⟨.inr ⟨rfl, by simp⟩, fun e h => (by cases h), fun e' h => ⟨e, rfl, by cases h; exact le_rfl⟩⟩
        | some d =>
          by_cases hgt : e.1 > d.1
          · have : nxt = some e := by rw [hn, hfa, hi]; simp [infGt, hgt]
            rw [this]
            exact ⟨.inr ⟨rfl, by simp⟩, fun e' h => ⟨e, rfl, by cases h; exact hgt.le⟩,
              fun e' h => ⟨e, rfl, by cases h; exact le_rfl⟩⟩
          · have : nxt = some d := by rw [hn, hfa, hi]; simp [infGt, hgt]
            rw [this]
            exact ⟨.inl rfl, fun e' h => ⟨d, rfl, by cases h; exact le_rfl⟩,
              fun e' h => ⟨d, rfl, by cases h; exact not_lt.1 hgt⟩⟩
    obtain ⟨k1, k2, k3⟩ := key
    obtain ⟨i1, i2, i3⟩ := ih nxt
    intro r
    have hr : r = l.foldl (fun best a => match f a with
      | none => best
      | some e => if infGt (some e.1) (best.map (·.1)) then some e else best) nxt := rfl
    rw [← hr] at i1 i2 i3
    refine ⟨?_, ?_, ?_⟩
    · rcases i1 with h | ⟨b, hb, h⟩
      · rcases k1 with h' | ⟨h', h''⟩
        · exact .inl (h.trans h')
        · exact .inr ⟨a, List.mem_cons_self, h'.trans h.symm, h ▸ h''⟩
      · exact .inr ⟨b, List.mem_cons_of_mem _ hb, h⟩
    · intro e he
      obtain ⟨e1, h1, h2⟩ := k2 e he
      obtain ⟨e2, h3, h4⟩ := i2 e1 h1
      exact ⟨e2, h3, h2.trans h4⟩
    · intro b hb e he
      rcases List.mem_cons.1 hb with rfl | hb
      · obtain ⟨e1, h1, h2⟩ := k3 e he
        obtain ⟨e2, h3, h4⟩ := i2 e1 h1
        exact ⟨e2, h3, h2.trans h4⟩
      · exact i3 b hb e he

/-- Case a) takes the largest of the multipliers of the free assets. -/
theorem C20_caseA_largest (p : Problem n K) (inv : Inv K) (f : List (Fin n)) (wl : Fin n → K)
    (h1 : 1 < f.length) (Finv : Matrix (Fin f.length) (Fin f.length) K)
    (hF : inv f.length (covF p f) = .ok Finv) (r : Option (K × Fin n × K))
    (h : caseA p inv f wl = .ok r) (j : Fin f.length) (l' b' : K)
    (hj : computeLambda p f Finv (meanOf p f) wl j (.pair (p.lB (f.get j)) (p.uB (f.get j))) = some (l', b')) :
    ∃ l i b, r = some (l, i, b) ∧ l' ≤ l := by
  unfold caseA at h
  rw [if_pos h1] at h
  simp only [hF, bind, Except.bind, pure, Except.pure, Except.ok.injEq] at h
  have hb := (foldl_best (fun j : Fin f.length =>
    (computeLambda p f Finv (meanOf p f) wl j (.pair (p.lB (f.get j)) (p.uB (f.get j)))).map
      (fun x => (x.1, f.get j, x.2))) (List.finRange f.length) none).2.2 j (List.mem_finRange j)
      (l', f.get j, b') (by rw [hj]; rfl)
  obtain ⟨⟨l, i, b⟩, he, hle⟩ := hb
  refine ⟨l, i, b, ?_, hle⟩
  rw [← h, ← he]
  congr 1
  funext best j
  cases computeLambda p f Finv (meanOf p f) wl j (.pair (p.lB (f.get j)) (p.uB (f.get j))) <;> rfl

/-- **C20.** Going down from the current multiplier `l0`, where the free weights lie within their
bounds, to the multiplier chosen in case a), every free weight stays within its bounds. -/
theorem C20_free_stay_within (p : Problem n K) (hpd : PosDef p) (inv : Inv K) (hinv : inv.Sound)
    (f : List (Fin n)) (hf : f.Nodup) (h1 : 1 < f.length)
    (Finv : Matrix (Fin f.length) (Fin f.length) K) (hF : inv f.length (covF p f) = .ok Finv)
    (wl : Fin n → K) (l : K) (i : Fin n) (b : K) (h : caseA p inv f wl = .ok (some (l, i, b)))
    (l0 : K) (j : Fin f.length)
    (h0 : p.lB (f.get j) ≤ (computeW p f Finv (meanOf p f) wl l0).1 j ∧
      (computeW p f Finv (meanOf p f) wl l0).1 j ≤ p.uB (f.get j))
    (l' : K) (hl : l ≤ l') (hl0 : l' ≤ l0) :
    p.lB (f.get j) ≤ (computeW p f Finv (meanOf p f) wl l').1 j ∧
      (computeW p f Finv (meanOf p f) wl l').1 j ≤ p.uB (f.get j) := by
  have hne : f ≠ [] := by rintro rfl; simp at h1
  have hg := onesDot_pos p hpd f hf hne Finv (hinv _ _ _ hF).1
  have a0 := computeW_affine p f Finv (meanOf p f) wl l0 j hg.ne'
  have a1 := computeW_affine p f Finv (meanOf p f) wl l' j hg.ne'
  set S := onesDot Finv (fun _ => 1)
  set c := -S * apply Finv (meanOf p f) j + onesDot Finv (meanOf p f) * apply Finv (fun _ => 1) j with hc
  set x0 := (computeW p f Finv (meanOf p f) wl l0).1 j
  set x1 := (computeW p f Finv (meanOf p f) wl l').1 j
  have hdiff : S * (x1 - x0) = (l0 - l') * c := by rw [mul_sub, a0, a1]; ring
  cases hL : computeLambda p f Finv (meanOf p f) wl j (.pair (p.lB (f.get j)) (p.uB (f.get j))) with
  | none =>
    have hc0 : c = 0 := by
      unfold computeLambda at hL
      simp only at hL
      split at hL
      · assumption
      · split at hL <;> cases hL
    rw [hc0, mul_zero] at hdiff
    have : x1 = x0 := by
      rcases mul_eq_zero.1 hdiff with h | h
      · exact absurd h hg.ne'
      · linarith
    rw [this]; exact h0
  | some e =>
    obtain ⟨lj, bj⟩ := e
    obtain ⟨l2, i2, b2, e2, hle⟩ := C20_caseA_largest p inv f wl h1 Finv hF _ h j lj bj hL
    cases e2
    obtain ⟨c', hc', hc0, hb, hlj⟩ := computeLambda_eq p f Finv _ wl j _ lj bj hL
    have hcc : c' = c := hc'
    rw [hcc] at hc0 hb hlj
    have key : S * (x1 - bj) = (lj - l') * c := by rw [mul_sub, a1, sub_mul, hlj]; ring
    simp only at hb
    have hd1 : 0 ≤ l0 - l' := by linarith
    have hd2 : lj - l' ≤ 0 := by linarith
    rcases lt_or_gt_of_ne hc0 with hneg | hpos
    · rw [if_neg (not_lt.2 hneg.le)] at hb
      have k1 : S * (x1 - x0) ≤ 0 := hdiff ▸ mul_nonpos_of_nonneg_of_nonpos hd1 hneg.le
      have k2 : 0 ≤ S * (x1 - bj) := key ▸ mul_nonneg_of_nonpos_of_nonpos hd2 hneg.le
      have k1' := nonpos_of_mul_nonpos_right k1 hg
      have k2' := nonneg_of_mul_nonneg_right k2 hg
      rw [hb] at k2'
      constructor <;> linarith [h0.1, h0.2]
    · rw [if_pos hpos] at hb
      have k1 : 0 ≤ S * (x1 - x0) := hdiff ▸ mul_nonneg hd1 hpos.le
      have k2 : S * (x1 - bj) ≤ 0 := key ▸ mul_nonpos_of_nonpos_of_nonneg hd2 hpos.le
      have k1' := nonneg_of_mul_nonneg_right k1 hg
      have k2' := nonpos_of_mul_nonpos_right k2 hg
      rw [hb] at k2'
      constructor <;> linarith [h0.1, h0.2]

/-- `self.ls[-1] is None or l < self.ls[-1]`. -/
def belowLast (last : Option K) (l : K) : Bool := match last with | none => true | some x => decide (l < x)

theorem belowLast_iff (last : Option K) (l : K) : belowLast last l = true ↔ ∀ x, last = some x → l < x := by
  cases last <;> simp [belowLast]

/-- One pass of the loop of case b). -/
def stepB (p : Problem n K) (inv : Inv K) (f : List (Fin n)) (wl : Fin n → K) (last : Option K)
    (best : Option (K × Fin n)) (i : Fin n) : Except PyErr (Option (K × Fin n)) := do
  let Finv ← inv (f ++ [i]).length (covF p (f ++ [i]))
  match computeLambda p (f ++ [i]) Finv (meanOf p (f ++ [i])) wl ⟨f.length, by simp⟩ (.value (wl i)) with
  | none => .error .typeError
  | some (l, _) =>
    pure (if belowLast last l && infGt (some l) (best.map (·.1)) then some (l, i) else best)

/-- `l` is the multiplier at which the bound asset `i` becomes free. -/
def Frees (p : Problem n K) (inv : Inv K) (f : List (Fin n)) (wl : Fin n → K) (i : Fin n) (l : K) : Prop :=
  ∃ Finv b, inv (f ++ [i]).length (covF p (f ++ [i])) = .ok Finv ∧
    computeLambda p (f ++ [i]) Finv (meanOf p (f ++ [i])) wl ⟨f.length, by simp⟩ (.value (wl i)) = some (l, b)

theorem stepB_spec (p : Problem n K) (inv : Inv K) (f : List (Fin n)) (wl : Fin n → K) (last : Option K)
    (best nxt : Option (K × Fin n)) (i : Fin n) (h : stepB p inv f wl last best i = .ok nxt) :
    (nxt = best ∨ ∃ l, nxt = some (l, i) ∧ Frees p inv f wl i l ∧ ∀ x, last = some x → l < x) ∧
    (∀ l k, best = some (l, k) → ∃ l2 k2, nxt = some (l2, k2) ∧ l ≤ l2) ∧
    ∀ l, Frees p inv f wl i l → (∀ x, last = some x → l < x) → ∃ l2 k2, nxt = some (l2, k2) ∧ l ≤ l2 := by
  unfold stepB at h
  cases hF : inv (f ++ [i]).length (covF p (f ++ [i])) with
  | error e => rw [hF] at h; cases h
  | ok Finv =>
    rw [hF] at h
    simp only [bind, Except.bind, pure, Except.pure] at h
    cases hL : computeLambda p (f ++ [i]) Finv (meanOf p (f ++ [i])) wl ⟨f.length, by simp⟩ (.value (wl i)) with
    | none => rw [hL] at h; cases h
    | some e =>
      obtain ⟨l, b⟩ := e
      rw [hL] at h
      have h := (Except.ok.inj h).symm
      have hfr : Frees p inv f wl i l := ⟨Finv, b, hF, hL⟩
      have huniq : ∀ l', Frees p inv f wl i l' → l' = l := by
        rintro l' ⟨F', b', e1, e2⟩
        rw [hF] at e1
        cases e1
        rw [hL] at e2
        cases e2
        rfl
      have hbelow := belowLast_iff last l
      by_cases hb : ∀ x, last = some x → l < x
      · rw [hbelow.2 hb, Bool.true_and] at h
        cases hbest : best with
        | none =>
          rw [hbest] at h
          have h : nxt = some (l, i) := h
          subst h
          exact ⟨.inr ⟨l, rfl, hfr, hb⟩, fun l k h => (by cases h),
            fun l' h' _ => ⟨l, i, rfl, (huniq l' h').le⟩⟩
        | some e =>
          rw [hbest] at h
          by_cases hgt : l > e.1
          · have h : nxt = some (l, i) := by rw [h]; simp [infGt, hgt]
            subst h
            exact ⟨.inr ⟨l, rfl, hfr, hb⟩, fun l' k h => ⟨l, i, rfl, by cases h; exact hgt.le⟩,
              fun l' h' _ => ⟨l, i, rfl, (huniq l' h').le⟩⟩
          · have h : nxt = some e := by rw [h]; simp [infGt, hgt]
            subst h
            exact ⟨.inl rfl, fun l' k h => ⟨l', k, h, le_rfl⟩,
              fun l' h' _ => ⟨e.1, e.2, rfl, (huniq l' h') ▸ not_lt.1 hgt⟩⟩
      · have hf : belowLast last l = false :=
          Bool.eq_false_iff.2 (fun h => hb (hbelow.1 h))
        rw [hf, Bool.false_and] at h
        have h : nxt = best := h
        subst h
        exact ⟨.inl rfl, fun l' k h => ⟨l', k, h, le_rfl⟩,
          fun l' h' hlt => absurd ((huniq l' h') ▸ hlt) hb⟩

/-- **C20.** Case b) takes a multiplier strictly below the current one at which a bound asset becomes
free, and the largest such among all bound assets. -/
theorem C20_caseB_largest (p : Problem n K) (inv : Inv K) (f : List (Fin n)) (hf : f.Nodup) (wl : Fin n → K)
    (last : Option K) (r : Option (K × Fin n)) (h : caseB p inv f wl last = .ok r) :
    (∀ l i, r = some (l, i) → i ∉ f ∧ Frees p inv f wl i l ∧ ∀ x, last = some x → l < x) ∧
    ∀ i, i ∉ f → ∀ l', Frees p inv f wl i l' → (∀ x, last = some x → l' < x) →
      ∃ l k, r = some (l, k) ∧ l' ≤ l := by
  have key : ∀ (bs : List (Fin n)) (init r : Option (K × Fin n)),
      bs.foldlM (stepB p inv f wl last) init = .ok r →
      (r = init ∨ ∃ l, ∃ i ∈ bs, r = some (l, i) ∧ Frees p inv f wl i l ∧ ∀ x, last = some x → l < x) ∧
      (∀ l i, init = some (l, i) → ∃ l2 k, r = some (l2, k) ∧ l ≤ l2) ∧
      ∀ i ∈ bs, ∀ l', Frees p inv f wl i l' → (∀ x, last = some x → l' < x) →
        ∃ l k, r = some (l, k) ∧ l' ≤ l := by
    intro bs
    induction bs with
    | nil =>
      intro init r h
      simp only [List.foldlM_nil, pure, Except.pure, Except.ok.injEq] at h
      subst h
      exact ⟨.inl rfl, fun l i h => ⟨l, i, h, le_rfl⟩, fun i h => absurd h List.not_mem_nil⟩
    | cons a bs ih =>
      intro init r h
      rw [List.foldlM_cons] at h
      cases hn : stepB p inv f wl last init a with
      | error e => rw [hn] at h; cases h
      | ok nxt =>
        rw [hn] at h
        obtain ⟨i1, i2, i3⟩ := ih nxt r h
        obtain ⟨n1, n2, n3⟩ := stepB_spec p inv f wl last init nxt a hn
        have up : ∀ l, (∃ l2 k2, nxt = some (l2, k2) ∧ l ≤ l2) → ∃ l2 k2, r = some (l2, k2) ∧ l ≤ l2 := by
          rintro l ⟨l2, k2, e, hle⟩
          obtain ⟨l3, k3, e3, hle3⟩ := i2 l2 k2 e
          exact ⟨l3, k3, e3, hle.trans hle3⟩
        refine ⟨?_, fun l i hi => up l (n2 l i hi), ?_⟩
        · rcases i1 with rfl | ⟨l, i, hi, rest⟩
          · rcases n1 with h | ⟨l, h⟩
            · exact .inl h
            · exact .inr ⟨l, a, List.mem_cons_self, h⟩
          · exact .inr ⟨l, i, List.mem_cons_of_mem _ hi, rest⟩
        · intro i hi l' hl' hlt
          rcases List.mem_cons.1 hi with rfl | hi
          · exact up l' (n3 l' hl' hlt)
          · exact i3 i hi l' hl' hlt
  unfold caseB at h
  split at h
  · have h : (getB f).foldlM (stepB p inv f wl last) none = .ok r := h
    obtain ⟨k1, -, k3⟩ := key _ _ _ h
    refine ⟨fun l i hr => ?_, fun i hi => k3 i (by simp [getB, hi])⟩
    rcases k1 with h0 | ⟨l2, i2, hm, h0, h1, h2⟩
    · rw [h0] at hr; cases hr
    · rw [h0] at hr
      cases hr
      exact ⟨by simpa [getB] using hm, h1, h2⟩
  · rename_i hlt
    simp only [pure, Except.pure, Except.ok.injEq] at h
    subst h
    refine ⟨by simp, fun i hi => absurd ?_ hlt⟩
    have : (i :: f).Nodup := List.nodup_cons.2 ⟨hi, hf⟩
    have := this.length_le_card
    simp only [List.length_cons, Fintype.card_fin] at this
    omega

/-- **C20.** The next stored multiplier is the larger of the two candidates; the asset that reached its
bound leaves the free list, or the asset that becomes free joins it. -/
theorem C20_next_multiplier (p : Problem n K) (inv : Inv K) (s : State n K) (f : List (Fin n))
    (w : Fin n → K) (hlast : s.w.getLast? = some w) (s' : State n K) (f' : List (Fin n)) (w' : Fin n → K)
    (h : solveStep p inv s f w = .ok (s', f', w', false)) :
    ∃ lin lout l, caseA p inv f w = .ok lin ∧ caseB p inv f w s.ls.getLast?.join = .ok lout ∧
      s'.ls = s.ls ++ [some l] ∧
      ((∃ i b, lin = some (l, i, b) ∧ f' = f.erase i ∧ ∀ lo k, lout = some (lo, k) → lo < l) ∨
       (∃ i, lout = some (l, i) ∧ f' = f ++ [i] ∧ ∀ li k b, lin = some (li, k, b) → li ≤ l)) := by
  unfold solveStep at h
  simp only [bind, Except.bind, hlast, Option.getD_some] at h
  split at h
  · cases h
  rename_i lin hlin
  split at h
  · cases h
  rename_i lout hlout
  split at h
  · split at h
    · cases h
    · simp only [pure, Except.pure, Except.ok.injEq, Prod.mk.injEq] at h
      exact absurd h.2.2.2 (by simp)
  rename_i hneg
  split at h
  · cases h
  simp only [pure, Except.pure, Except.ok.injEq, Prod.mk.injEq] at h
  obtain ⟨hs, hf, -, -⟩ := h
  refine ⟨lin, lout, (chooseLambda p lin lout f w).1, hlin, hlout, by rw [← hs], ?_⟩
  cases lin with
  | none =>
    cases lout with
    | none => simp [negOrNone] at hneg
    | some e =>
      right
      exact ⟨e.2, rfl, hf.symm, fun li k b h => by cases h⟩
  | some e =>
    obtain ⟨li, i, b⟩ := e
    cases lout with
    | none =>
      left
      exact ⟨i, b, rfl, hf.symm, fun lo k h => by cases h⟩
    | some d =>
      obtain ⟨lo, k⟩ := d
      by_cases hgt : li > lo
      · left
        have hc : chooseLambda p (some (li, i, b)) (some (lo, k)) f w =
            (li, f.erase i, Function.update w i (p.store b)) := by simp [chooseLambda, infGt, hgt]
        rw [hc] at hf ⊢
        exact ⟨i, b, rfl, hf.symm, fun lo' k' h => by cases h; exact hgt⟩
      · right
        have hc : chooseLambda p (some (li, i, b)) (some (lo, k)) f w = (lo, f ++ [k], w) := by
          simp [chooseLambda, infGt, hgt]
        rw [hc] at hf ⊢
        exact ⟨k, rfl, hf.symm, fun li' k' b' h => by cases h; exact not_lt.1 hgt⟩

/-- The hypotheses are met on the example problem: with assets 0 and 1 free, both cases find an event. -/
example : (match caseA p3 smallInv [0, 1] ![3/4, 1/4, 0] with
      | .ok (some _) => true | _ => false) = true ∧
    (match caseB p3 smallInv [0, 1] ![3/4, 1/4, 0] none with
      | .ok (some _) => true | _ => false) = true := by
  constructor <;> decide +kernel

end Verif.Cla
