import Verif.Proof.ClaLine
import Mathlib.Data.Finset.Order

/-! The run of the critical line algorithm follows the optimal portfolios. -/

set_option linter.unusedSectionVars false

namespace Verif.Cla
open Verif.Py

variable {K : Type} [Field K] [LinearOrder K] [IsStrictOrderedRing K]
variable {n : ℕ}

/-- Moving to another allowed portfolio does not pay to first order. -/
theorem Kkt.cross {p : Problem n K} {l g : K} {w : Fin n → K} (h : Kkt p l g w) {x : Fin n → K} (hx : Feasible p x) :
    l * expRet p (fun i => x i - w i) ≤ ∑ i, (x i - w i) * marg p w i := by
  set d : Fin n → K := fun i => x i - w i with hd
  have hds : ∑ i, d i = 0 := by simp [hd, Finset.sum_sub_distrib, hx.2, h.1.2]
  have h1 : ∑ i, d i * (g + l * p.mean i) ≤ ∑ i, d i * marg p w i := by
    apply Finset.sum_le_sum
    intro i _
    rcases lt_trichotomy (d i) 0 with hi | hi | hi
    · have : p.lB i < w i := lt_of_le_of_lt (hx.1 i).1 (by simp only [hd] at hi; linarith)
      exact mul_le_mul_of_nonpos_left ((h.2 i).1 this) hi.le
    · simp [hi]
    · have : w i < p.uB i := lt_of_lt_of_le (by simp only [hd] at hi; linarith) (hx.1 i).2
      exact mul_le_mul_of_nonneg_left ((h.2 i).2 this) hi.le
  have e : ∑ i, d i * (g + l * p.mean i) = l * expRet p d := by
    simp only [mul_add, Finset.sum_add_distrib, ← Finset.sum_mul, hds, expRet, Finset.mul_sum]
    rw [zero_mul, zero_add]
    apply Finset.sum_congr rfl; intro i _; ring
  rwa [e] at h1

theorem Kkt.best {p : Problem n K} (hs : SymmCov p) (hpd : PosDef p) {l g : K} {w : Fin n → K} (h : Kkt p l g w) :
    Best p l w := by
  refine ⟨h.1, fun x hx => ?_⟩
  have hcross := h.cross hx
  set d : Fin n → K := fun i => x i - w i with hd
  have hxe : x = fun i => w i + d i := by funext i; simp [hd]
  have hv := var_add p hs w d
  have hr := expRet_add p w d
  have hdnn : 0 ≤ var p d := by
    by_cases h0 : ∃ i, d i ≠ 0
    · exact (hpd d h0).le
    · push Not at h0
      simp [var, h0]
  rw [hxe, hv, hr]
  have e : ∑ i, d i * ∑ j, p.cov i j * w j = ∑ i, (x i - w i) * marg p w i := rfl
  rw [e]
  linarith

/-- There is one portfolio that satisfies the first-order conditions at a multiplier. -/
theorem Kkt.unique {p : Problem n K} (hpd : PosDef p) {l g g' : K} {w w' : Fin n → K} (h : Kkt p l g w)
    (h' : Kkt p l g' w') : w = w' := by
  apply eq_of_var p hpd
  have h1 := h.cross h'.1
  have h2 := h'.cross h.1
  have e : var p (fun k => w k - w' k) =
      -(∑ i, (w' i - w i) * marg p w i) - ∑ i, (w i - w' i) * marg p w' i := by
    unfold var
    rw [← Finset.sum_neg_distrib, ← Finset.sum_sub_distrib]
    apply Finset.sum_congr rfl
    intro i _
    have := marg_sub p w w' i
    unfold marg at this ⊢
    rw [this]; ring
  have e2 : expRet p (fun i => w' i - w i) = -expRet p (fun i => w i - w' i) := by
    unfold expRet
    rw [← Finset.sum_neg_distrib]
    apply Finset.sum_congr rfl
    intro i _; ring
  rw [e2] at h1
  rw [e]
  linarith

theorem Best.efficient {p : Problem n K} {l : K} (hl : 0 ≤ l) {w : Fin n → K} (h : Best p l w) : Efficient p w :=
  ⟨h.1, fun x hx hr => by
    have h1 := h.2 x hx
    have h2 := mul_le_mul_of_nonneg_left hr hl
    linarith⟩

/-- The sign the gap of an asset at a bound must have. -/
def Sign (p : Problem n K) (w : Fin n → K) (i : Fin n) (d : K) : Prop :=
  (p.lB i < w i → d ≤ 0) ∧ (w i < p.uB i → 0 ≤ d)

/-- The line with free assets `f` carries the optimal portfolios for multipliers just below `l0`. -/
structure Good (p : Problem n K) (f : List (Fin n)) (w : Fin n → K) (l0 : K) (W : K → Fin n → K) (g : K → K) : Prop where
  nodup : f.Nodup
  ne : f ≠ []
  fam : Fam p f w W g
  box : ∀ i, i ∉ f → w i = p.lB i ∨ w i = p.uB i
  within : ∀ i, i ∈ f → p.lB i ≤ W l0 i ∧ W l0 i ≤ p.uB i
  sign : ∀ i, i ∉ f → Sign p w i (gap p W g l0 i)
  tie : ∀ i, i ∉ f → gap p W g l0 i = 0 → ∀ l, l < l0 → Sign p w i (gap p W g l i)

theorem Good.kkt {p : Problem n K} (hb : ∀ i, p.lB i ≤ p.uB i) (hpd : PosDef p) {inv : Inv K} (hinv : inv.Sound)
    {f : List (Fin n)} {w : Fin n → K} {l0 : K} {W : K → Fin n → K} {g : K → K} (h : Good p f w l0 W g)
    {lin : Option (K × Fin n × K)} (hA : caseA p inv f w = .ok lin) (hfr : ∀ i, i ∉ f → ∃ l, Frees p inv f w i l)
    {l : K} (hl : l ≤ l0) (hin : ∀ e, lin = some e → e.1 ≤ l)
    (hout : ∀ i, i ∉ f → ∀ l1, Frees p inv f w i l1 → l1 < l0 → l1 ≤ l) : Kkt p l (g l) (W l) := by
  have hsign : ∀ i, i ∉ f → Sign p w i (gap p W g l i) := by
    intro i hi
    rcases hl.lt_or_eq with hlt | rfl
    swap
    · exact h.sign i hi
    by_cases h0 : gap p W g l0 i = 0
    · exact h.tie i hi h0 l hlt
    obtain ⟨l1, h1⟩ := hfr i hi
    have hz := frees_iff p hpd inv hinv f h.nodup h.ne w W g h.fam i hi l1 h1
    have hz1 : gap p W g l1 i = 0 := (hz l1).2 rfl
    have a0 := h.fam.gap_affine l0 i
    have a1 := h.fam.gap_affine l1 i
    have a2 := h.fam.gap_affine l i
    set s := gap p W g 1 i - gap p W g 0 i
    have e0 : gap p W g l0 i = (l0 - l1) * s := by rw [a0]; rw [hz1] at a1; linarith
    have e2 : gap p W g l i = (l - l1) * s := by rw [a2]; rw [hz1] at a1; linarith
    have hne1 : l1 ≠ l0 := fun he => h0 (he ▸ hz1)
    have hside : l1 ≤ l ∨ l0 < l1 := by
      rcases lt_or_gt_of_ne hne1 with h2 | h2
      · exact .inl (hout i hi l1 h1 h2)
      · exact .inr h2
    obtain ⟨s1, s2⟩ := h.sign i hi
    rw [e0] at s1 s2
    rw [e2]
    rcases hside with hle | hgt
    · have p0 : 0 < l0 - l1 := by linarith
      refine ⟨fun hx => ?_, fun hx => ?_⟩
      · exact mul_nonpos_of_nonneg_of_nonpos (by linarith) (nonpos_of_mul_nonpos_right (s1 hx) p0)
      · exact mul_nonneg (by linarith) (nonneg_of_mul_nonneg_right (s2 hx) p0)
    · have p0 : 0 < l1 - l0 := by linarith
      refine ⟨fun hx => ?_, fun hx => ?_⟩
      · have : 0 ≤ (l1 - l0) * s := by have := s1 hx; linarith
        have := nonneg_of_mul_nonneg_right this p0
        exact mul_nonpos_of_nonpos_of_nonneg (by linarith) this
      · have : (l1 - l0) * s ≤ 0 := by have := s2 hx; linarith
        have := nonpos_of_mul_nonpos_right this p0
        exact mul_nonneg_of_nonpos_of_nonpos (by linarith) this
  have hoff := (h.fam.line l).off
  refine ⟨⟨fun i => ?_, (h.fam.line l).sum⟩, fun i => ?_⟩
  · by_cases hi : i ∈ f
    · exact caseA_stays p hpd inv hinv f h.nodup h.ne w W g h.fam lin hA l0 l hl hin i hi (h.within i hi)
    · rw [hoff i hi]
      rcases h.box i hi with e | e <;> rw [e]
      · exact ⟨le_rfl, hb i⟩
      · exact ⟨hb i, le_rfl⟩
  · by_cases hi : i ∈ f
    · have := (h.fam.line l).free i hi
      exact ⟨fun _ => this.le, fun _ => this.ge⟩
    · obtain ⟨s1, s2⟩ := hsign i hi
      rw [← hoff i hi] at s1 s2
      unfold gap at s1 s2
      exact ⟨fun hx => by linarith [s1 hx], fun hx => by linarith [s2 hx]⟩

/-- Case a) never goes up. -/
theorem Good.lin_le {p : Problem n K} (hpd : PosDef p) {inv : Inv K} (hinv : inv.Sound)
    {f : List (Fin n)} {w : Fin n → K} {l0 : K} {W : K → Fin n → K} {g : K → K} (h : Good p f w l0 W g)
    {e : K × Fin n × K} (hA : caseA p inv f w = .ok (some e)) : e.1 ≤ l0 := by
  obtain ⟨l, i, b⟩ := e
  obtain ⟨-, hi, -, -, hlt⟩ := caseA_reaches p hpd inv hinv f h.nodup w W g h.fam l i b hA
  by_contra hc
  rcases hlt l0 (not_le.1 hc) with ⟨-, h2⟩ | ⟨-, h2⟩
  · exact absurd (h.within i hi).2 (not_le.2 h2)
  · exact absurd (h.within i hi).1 (not_le.2 h2)

/-- What binding an asset means for its gap. -/
theorem gap_bound {p : Problem n K} (hpd : PosDef p) {f : List (Fin n)} {i : Fin n} {w w' : Fin n → K}
    (hw : ∀ k, k ∉ f → w' k = w k) {W W' : K → Fin n → K} {g g' : K → K} (h : Fam p f w W g)
    (h' : Fam p (f.erase i) w' W' g') (hf : f.Nodup) (l : K) (hne : W l i ≠ w' i) :
    (W l i - w' i) * gap p W' g' l i < 0 := by
  have hoff : W' l i = w' i := (h'.line l).off i (fun hc => by
    rw [hf.mem_erase_iff] at hc; exact hc.1 rfl)
  have hpos : 0 < var p (fun k => W l k - W' l k) :=
    hpd _ ⟨i, by rw [hoff]; exact sub_ne_zero.2 hne⟩
  have e : var p (fun k => W l k - W' l k) = ∑ k, ((W l k - W' l k) * (g l - g' l) -
      (if k = i then (W l i - w' i) * gap p W' g' l i else 0)) := by
    unfold var
    apply Finset.sum_congr rfl
    intro k _
    have hm := marg_sub p (W l) (W' l) k
    unfold marg at hm
    rw [hm]
    beta_reduce
    by_cases hki : k = i
    · subst hki
      rw [if_pos rfl, hoff]
      by_cases hkf : k ∈ f
      · have h1 := (h.line l).free k hkf
        unfold marg at h1
        rw [h1]
        unfold gap marg
        ring
      · exact absurd ((h.line l).off k hkf |>.trans (hw k hkf).symm) hne
    · rw [if_neg hki, sub_zero]
      by_cases hkf : k ∈ f
      · have h1 := (h.line l).free k hkf
        have h2 := (h'.line l).free k ((List.mem_erase_of_ne hki).2 hkf)
        unfold marg at h1 h2
        rw [h1, h2]; ring
      · have h1 := (h.line l).off k hkf
        have h2 := (h'.line l).off k (fun hc => hkf (List.mem_of_mem_erase hc))
        have : W l k - W' l k = 0 := by rw [h1, h2, hw k hkf, sub_self]
        simp only [this, zero_mul]
  rw [e, Finset.sum_sub_distrib, ← Finset.sum_mul, Finset.sum_sub_distrib, (h.line l).sum, (h'.line l).sum,
    Finset.sum_ite_eq' Finset.univ i, if_pos (Finset.mem_univ _)] at hpos
  linarith

theorem Good.bind {p : Problem n K} (hpd : PosDef p) (hnt : NoTies p) {inv : Inv K} (hinv : inv.Sound)
    {f : List (Fin n)} {w : Fin n → K} {l0 : K} {W : K → Fin n → K} {g : K → K} (h : Good p f w l0 W g)
    {l : K} {i : Fin n} {b : K} (hA : caseA p inv f w = .ok (some (l, i, b))) (hk : Kkt p l (g l) (W l)) (hl : 0 ≤ l)
    {w' : Fin n → K} (hw : ∀ k, k ∉ f → w' k = w k) (hwi : w' i = b) {W' : K → Fin n → K} {g' : K → K}
    (hF : Fam p (f.erase i) w' W' g') : Good p (f.erase i) w' l W' g' ∧ W' l = W l ∧ l ≠ 0 := by
  obtain ⟨h1, hi, hbb, hWi, hlt⟩ := caseA_reaches p hpd inv hinv f h.nodup w W g h.fam l i b hA
  have hmem : ∀ k, k ∈ f.erase i ↔ k ≠ i ∧ k ∈ f := fun k => h.nodup.mem_erase_iff
  have hne' : f.erase i ≠ [] := by
    intro hc
    have := congrArg List.length hc
    rw [List.length_erase_of_mem hi, List.length_nil] at this
    omega
  have hline : Line p (f.erase i) w' l (W l) (g l) := by
    refine ⟨fun k hk => ?_, (h.fam.line l).sum, fun k hk => (h.fam.line l).free k ((hmem k).1 hk).2⟩
    by_cases hki : k = i
    · rw [hki, hWi, hwi]
    · have hkf : k ∉ f := fun hc => hk ((hmem k).2 ⟨hki, hc⟩)
      rw [(h.fam.line l).off k hkf, hw k hkf]
  have eW : W' l = W l := (hF.line l).unique hpd hline
  have eg : g' l = g l := (eW ▸ hF.line l).level hne' hline
  obtain ⟨j, hj⟩ := List.exists_mem_of_ne_nil _ hne'
  have hj' := (hmem j).1 hj
  have hundi : Undecided p l (g l) (W l) i := ⟨by rw [hWi]; exact hbb, (h.fam.line l).free i hi⟩
  have hjl := (h.fam.line l).free j hj'.2
  have egap : ∀ k, gap p W' g' l k = marg p (W l) k - (g l + l * p.mean k) := fun k => by unfold gap; rw [eW, eg]
  refine ⟨⟨h.nodup.erase _, hne', hF, fun k hk => ?_, fun k _ => ?_, fun k hkn => ?_, fun k hkn h0 l1 hl1 => ?_⟩, eW, ?_⟩
  · by_cases hki : k = i
    · rw [hki, hwi]; exact hbb
    · have hkf : k ∉ f := fun hc => hk ((hmem k).2 ⟨hki, hc⟩)
      rw [hw k hkf]; exact h.box k hkf
  · rw [eW]; exact hk.1.1 k
  · have hwk : W l k = w' k := hline.off k hkn
    rw [egap]
    obtain ⟨k1, k2⟩ := hk.2 k
    rw [hwk] at k1 k2
    exact ⟨fun hx => by linarith [k1 hx], fun hx => by linarith [k2 hx]⟩
  · have hwk : W l k = w' k := hline.off k hkn
    by_cases hki : k = i
    · subst hki
      rcases hlt l1 hl1 with ⟨e, hx⟩ | ⟨e, hx⟩
      · have := gap_bound hpd hw h.fam hF h.nodup l1 (by rw [hwi, e]; exact hx.ne')
        have h2 : 0 < W l1 k - w' k := by rw [hwi, e]; linarith
        have h3 := neg_of_mul_neg_right this h2.le
        exact ⟨fun _ => h3.le, fun hc => by rw [hwi, e] at hc; exact absurd hc (lt_irrefl _)⟩
      · have := gap_bound hpd hw h.fam hF h.nodup l1 (by rw [hwi, e]; exact hx.ne)
        have h2 : W l1 k - w' k < 0 := by rw [hwi, e]; linarith
        have h3 := pos_of_mul_neg_right this h2.le
        exact ⟨fun hc => by rw [hwi, e] at hc; exact absurd hc (lt_irrefl _), fun _ => h3.le⟩
    · exfalso
      have hkf : k ∉ f := fun hc => hkn ((hmem k).2 ⟨hki, hc⟩)
      have hundk : Undecided p l (g l) (W l) k := by
        refine ⟨?_, by rw [egap] at h0; linarith⟩
        rw [(h.fam.line l).off k hkf]; exact h.box k hkf
      have hjk : k ≠ j := fun hc => hkf (hc ▸ hj'.2)
      exact hnt.apart l (g l) (W l) i k j hl hk (Ne.symm hki) (Ne.symm hj'.1) hjk hundi hundk hjl
  · rintro rfl
    exact hnt.least (g 0) (W 0) i j hk (Ne.symm hj'.1) hundi (by rw [hjl]; ring)

theorem Good.unbind {p : Problem n K} (hpd : PosDef p) (hnt : NoTies p) {inv : Inv K} (hinv : inv.Sound)
    {f : List (Fin n)} {w : Fin n → K} {l0 : K} {W : K → Fin n → K} {g : K → K} (h : Good p f w l0 W g)
    {l : K} {i : Fin n} (hi : i ∉ f) (hfr : Frees p inv f w i l) (hk : Kkt p l (g l) (W l)) (hl : 0 ≤ l)
    {w' : Fin n → K} (hw : ∀ k, k ∉ f ++ [i] → w' k = w k) {W' : K → Fin n → K} {g' : K → K}
    (hF : Fam p (f ++ [i]) w' W' g') : Good p (f ++ [i]) w' l W' g' ∧ W' l = W l ∧ g' l = g l := by
  have hz := (frees_iff p hpd inv hinv f h.nodup h.ne w W g h.fam i hi l hfr l).2 rfl
  have hmi : marg p (W l) i = g l + l * p.mean i := by unfold gap at hz; linarith
  have hf' : (f ++ [i]).Nodup := by
    rw [List.nodup_append]
    refine ⟨h.nodup, by simp, ?_⟩
    intro a ha b hb hab
    simp only [List.mem_singleton] at hb
    exact hi (by rw [← hb, ← hab]; exact ha)
  have hne' : f ++ [i] ≠ [] := by simp
  have hsub : ∀ k, k ∉ f ++ [i] → k ∉ f ∧ k ≠ i := fun k hk => by simpa using hk
  have hline : Line p (f ++ [i]) w' l (W l) (g l) := by
    refine ⟨fun k hk => ?_, (h.fam.line l).sum, fun k hk => ?_⟩
    · rw [(h.fam.line l).off k (hsub k hk).1, hw k hk]
    · rcases List.mem_append.1 hk with hk | hk
      · exact (h.fam.line l).free k hk
      · rw [List.mem_singleton] at hk
        rw [hk]; exact hmi
  have eW : W' l = W l := (hF.line l).unique hpd hline
  have eg : g' l = g l := (eW ▸ hF.line l).level hne' hline
  obtain ⟨j, hj⟩ := List.exists_mem_of_ne_nil _ h.ne
  have hji : i ≠ j := fun hc => hi (hc ▸ hj)
  have hundi : Undecided p l (g l) (W l) i := ⟨by rw [(h.fam.line l).off i hi]; exact h.box i hi, hmi⟩
  have egap : ∀ k, gap p W' g' l k = marg p (W l) k - (g l + l * p.mean k) := fun k => by unfold gap; rw [eW, eg]
  refine ⟨⟨hf', hne', hF, fun k hk => ?_, fun k _ => ?_, fun k hkn => ?_, fun k hkn h0 l1 hl1 => ?_⟩, eW, eg⟩
  · rw [hw k hk]; exact h.box k (hsub k hk).1
  · rw [eW]; exact hk.1.1 k
  · have hwk : W l k = w' k := hline.off k hkn
    rw [egap]
    obtain ⟨k1, k2⟩ := hk.2 k
    rw [hwk] at k1 k2
    exact ⟨fun hx => by linarith [k1 hx], fun hx => by linarith [k2 hx]⟩
  · exfalso
    obtain ⟨hkf, hki⟩ := hsub k hkn
    have hundk : Undecided p l (g l) (W l) k := by
      refine ⟨?_, by rw [egap] at h0; linarith⟩
      rw [(h.fam.line l).off k hkf]; exact h.box k hkf
    exact hnt.apart l (g l) (W l) i k j hl hk (Ne.symm hki) hji (fun hc => hkf (hc ▸ hj)) hundi hundk
      ((h.fam.line l).free j hj)

/-- What is known between two iterations: the line of the current free assets, and, if every other asset has a multiplier,
that it carries the optimal portfolios below the last one. -/
def Follows (p : Problem n K) (inv : Inv K) (f : List (Fin n)) (w : Fin n → K) (last : Option K) : Prop :=
  f.Nodup ∧ f ≠ [] ∧ ∃ W g, Fam p f w W g ∧ ((∀ i, i ∉ f → ∃ l, Frees p inv f w i l) →
    ∀ B, ∃ l0, 0 ≤ l0 ∧ (∀ x, last = some x → l0 = x) ∧ (last = none → B ≤ l0) ∧ Good p f w l0 W g)

theorem follows_init {p : Problem n K} (hpd : PosDef p) {inv : Inv K} (hinv : inv.Sound) {j : Fin n}
    {w : Fin n → K} (hj : InitOk p j w) : Follows p inv [j] w none := by
  have hline : ∀ l, Line p [j] w l w (marg p w j - l * p.mean j) := fun l =>
    ⟨fun _ _ => rfl, hj.1.2, fun i hi => by rw [List.mem_singleton] at hi; rw [hi]; ring⟩
  have hF : Fam p [j] w (fun _ => w) (fun l => marg p w j - l * p.mean j) :=
    ⟨hline, fun l i => by ring, fun l => by ring⟩
  refine ⟨by simp, by simp, _, _, hF, fun hfr B => ?_⟩
  have hL : ∀ i, ∃ l, i ≠ j → Frees p inv [j] w i l := by
    intro i
    by_cases hi : i = j
    · exact ⟨0, fun h => absurd hi h⟩
    · obtain ⟨l, hl⟩ := hfr i (by simpa using hi)
      exact ⟨l, fun _ => hl⟩
  choose L hL using hL
  obtain ⟨M, hM⟩ := (Finset.univ.image L).exists_le
  refine ⟨max (max 0 B) (M + 1), (le_max_left _ _).trans (le_max_left _ _), fun x hx => (by cases hx),
    fun _ => (le_max_right _ _).trans (le_max_left _ _), ?_⟩
  set l0 := max (max 0 B) (M + 1) with hl0
  have hlt : ∀ i, L i < l0 := fun i => by
    have h1 := hM (L i) (Finset.mem_image_of_mem _ (Finset.mem_univ i))
    have h2 : M + 1 ≤ l0 := le_max_right _ _
    linarith
  have hz : ∀ i, i ≠ j → ∀ l, gap p (fun _ => w) (fun l => marg p w j - l * p.mean j) l i = 0 ↔ l = L i := fun i hi l =>
    frees_iff p hpd inv hinv [j] (by simp) (by simp) w _ _ hF i (by simpa using hi) (L i) (hL i hi) l
  have hg : ∀ i, i ≠ j → gap p (fun _ => w) (fun l => marg p w j - l * p.mean j) l0 i =
      (l0 - L i) * (p.mean j - p.mean i) := by
    intro i hi
    have h0 := (hz i hi (L i)).2 rfl
    unfold gap at h0 ⊢
    linarith
  refine ⟨by simp, by simp, hF, fun i hi => ?_, fun i _ => hj.1.1 i, fun i hi => ?_, fun i hi h0 => ?_⟩
  · rcases hj.2.1 i (by simpa using hi) with ⟨e, -⟩ | ⟨e, -⟩
    · exact .inl e
    · exact .inr e
  · have hij : i ≠ j := by simpa using hi
    rw [hg i hij]
    have hp : 0 ≤ l0 - L i := by linarith [hlt i]
    rcases hj.2.1 i hij with ⟨e, hm⟩ | ⟨e, hm⟩
    · exact ⟨fun hc => absurd hc (by rw [e]; exact lt_irrefl _), fun _ => mul_nonneg hp (by linarith)⟩
    · exact ⟨fun _ => mul_nonpos_of_nonneg_of_nonpos hp (by linarith), fun hc => absurd hc (by rw [e]; exact lt_irrefl _)⟩
  · have hij : i ≠ j := by simpa using hi
    exact absurd ((hz i hij l0).1 h0) (hlt i).ne'

theorem follows_good {p : Problem n K} {inv : Inv K} {f : List (Fin n)} {w : Fin n → K} {l : K} {W : K → Fin n → K}
    {g : K → K} (hl : 0 ≤ l) (h : Good p f w l W g) : Follows p inv f w (some l) :=
  ⟨h.nodup, h.ne, W, g, h.fam, fun _ _ => ⟨l, hl, fun x hx => (by cases hx; rfl), fun hc => (by cases hc), h⟩⟩

/-- How an iteration that is not the last goes on: the line is left at the multiplier `l`, because a free asset reaches a
bound or a bound asset becomes free, for a line that carries the optimal portfolios below `l`. -/
def Leaves (p : Problem n K) (inv : Inv K) (f : List (Fin n)) (w : Fin n → K) (last : Option K) (f' : List (Fin n))
    (w' : Fin n → K) (l : K) : Prop :=
  (∃ W' g', Good p f' w' l W' g') ∧ ∃ l0 W g, (∀ x, last = some x → l0 = x) ∧ Good p f w l0 W g ∧ l ≤ l0 ∧
    Kkt p l (g l) (W l) ∧ ((∃ i b, caseA p inv f w = .ok (some (l, i, b)) ∧ i ∈ f ∧ f' = f.erase i) ∨
      (∃ i, i ∉ f ∧ Frees p inv f w i l ∧ l < l0 ∧ f' = f ++ [i]))

/-- One iteration: the multiplier is not negative; the stored portfolio, if fully invested, is optimal for it; at the end
it is the one of least variance, and otherwise the line still carries the optimal portfolios. -/
theorem follows_step {p : Problem n K} (hid : p.store = id) (hb : ∀ i, p.lB i ≤ p.uB i) (hpd : PosDef p) (hnt : NoTies p)
    {inv : Inv K} (hinv : inv.Sound) {s s' : State n K} {f f' : List (Fin n)} {w w' : Fin n → K} {b : Bool}
    (hlast : s.w.getLast? = some w) (hI : Follows p inv f w s.ls.getLast?.join)
    (h : solveStep p inv s f w = .ok (s', f', w', b)) :
    ∃ l g0, 0 ≤ l ∧ s' = ⟨s.w ++ [w'], s.ls ++ [some l], s.g ++ [some g0], s.f ++ [f']⟩ ∧
      (∑ i, w' i = 1 → ∃ g, Kkt p l g w' ∧ ∀ i, i ∈ f' → marg p w' i = g + l * p.mean i) ∧ (b = true → l = 0 ∧ ∃ g, Kkt p 0 g w') ∧
      (b = false → Leaves p inv f w s.ls.getLast?.join f' w' l) := by
  obtain ⟨hf, hne, W, g, hW, hgood⟩ := hI
  unfold solveStep at h
  simp only [bind, Except.bind, hlast, Option.getD_some] at h
  split at h
  · cases h
  rename_i lin hlin
  split at h
  · cases h
  rename_i lout hlout
  have hfr := fun i hi => caseB_frees p inv f hf w _ lout hlout i hi
  obtain ⟨hB1, hB2⟩ := C20_caseB_largest p inv f hf w _ lout hlout
  obtain ⟨l0, hl0, hx, hB, hG⟩ := hgood hfr ((lout.map (·.1)).getD 0 + 1)
  have hin0 : ∀ e, lin = some e → e.1 ≤ l0 := fun e he => hG.lin_le hpd hinv (he ▸ hlin)
  have hout0 : ∀ l i, lout = some (l, i) → l < l0 := by
    intro l i he
    cases hc : s.ls.getLast?.join with
    | none =>
      have := hB hc
      rw [he] at this
      simp only [Option.map_some, Option.getD_some] at this
      linarith
    | some x => rw [hx x hc]; exact (hB1 l i he).2.2 x hc
  have hout : ∀ i, i ∉ f → ∀ l1, Frees p inv f w i l1 → l1 < l0 → ∃ l k, lout = some (l, k) ∧ l1 ≤ l :=
    fun i hi l1 h1 hlt => hB2 i hi l1 h1 (fun x hc => by rw [← hx x hc]; exact hlt)
  have hkkt : ∀ l, l ≤ l0 → (∀ e, lin = some e → e.1 ≤ l) → (∀ e, lout = some e → e.1 ≤ l) → Kkt p l (g l) (W l) :=
    fun l hl h1 h2 => hG.kkt hb hpd hinv hlin hfr hl h1 (fun i hi l1 hfr1 hlt => by
      obtain ⟨l2, k, he, hle⟩ := hout i hi l1 hfr1 hlt
      exact hle.trans (h2 _ he))
  split at h
  · rename_i hneg
    split at h
    · cases h
    · rename_i Finv hF
      simp only [pure, Except.pure, Except.ok.injEq, Prod.mk.injEq] at h
      obtain ⟨rfl, rfl, rfl, rfl⟩ := h
      simp only [Bool.and_eq_true] at hneg
      have hk0 : Kkt p 0 (g 0) (W 0) := by
        refine hkkt 0 hl0 (fun e he => ?_) (fun e he => ?_)
        · rw [he] at hneg
          simpa [negOrNone] using (show e.1 < 0 by simpa [negOrNone] using hneg.1).le
        · rw [he] at hneg
          simpa [negOrNone] using (show e.1 < 0 by simpa [negOrNone] using hneg.2).le
      obtain ⟨hget, hoff⟩ := writeFree_get p hid f hf (computeW p f Finv (fun _ => 0) w 0).1 w
      have hl := line_of_kkt p hpd f hf hne Finv (hinv _ _ _ hF).1 (fun _ => 0) w _ 0 (fun _ => by ring) hget hoff
      have e := hl.unique hpd (hW.line 0)
      refine ⟨0, _, le_rfl, rfl, fun _ => ⟨g 0, by rw [e]; exact hk0, by rw [e]; exact (hW.line 0).free⟩, fun _ => ⟨rfl, g 0, by rw [e]; exact hk0⟩,
        fun hc => by cases hc⟩
  · rename_i hnn
    have hcases : (∃ li ii bi, lin = some (li, ii, bi) ∧ 0 ≤ li ∧ (∀ e, lout = some e → e.1 ≤ li) ∧
          chooseLambda p lin lout f w = (li, f.erase ii, Function.update w ii (p.store bi))) ∨
        (∃ lo io, lout = some (lo, io) ∧ 0 ≤ lo ∧ (∀ e, lin = some e → e.1 ≤ lo) ∧
          chooseLambda p lin lout f w = (lo, f ++ [io], w)) := by
      unfold chooseLambda
      rcases lin with _ | ⟨li, ii, bi⟩
      · rcases lout with _ | ⟨lo, io⟩
        · simp [negOrNone] at hnn
        · refine .inr ⟨lo, io, rfl, ?_, fun e he => (by cases he), by simp [infGt]⟩
          simpa [negOrNone] using hnn
      · rcases lout with _ | ⟨lo, io⟩
        · refine .inl ⟨li, ii, bi, rfl, ?_, fun e he => (by cases he), by simp [infGt]⟩
          simpa [negOrNone] using hnn
        · have hnn' : li < 0 → 0 ≤ lo := by simpa [negOrNone] using hnn
          by_cases hgt : li > lo
          · refine .inl ⟨li, ii, bi, rfl, ?_, fun e he => (by cases he; exact hgt.le), by simp [infGt, hgt]⟩
            by_contra hc
            have := hnn' (not_le.1 hc)
            linarith [not_le.1 hc]
          · refine .inr ⟨lo, io, rfl, ?_, fun e he => (by cases he; exact not_lt.1 hgt), by simp [infGt, hgt]⟩
            by_contra hc
            exact hc (hnn' (by linarith [not_le.1 hc, not_lt.1 hgt]))
    obtain ⟨l, fn, w0, hd⟩ : ∃ l fn w0, chooseLambda p lin lout f w = (l, fn, w0) := ⟨_, _, _, rfl⟩
    rw [hd] at h hcases
    simp only at h
    split at h
    · cases h
    · rename_i Finv hF
      simp only [pure, Except.pure, Except.ok.injEq, Prod.mk.injEq] at h
      obtain ⟨rfl, rfl, rfl, rfl⟩ := h
      rcases hcases with ⟨li, ii, bi, rfl, hli, hmax, he⟩ | ⟨lo, io, rfl, hlo, hmax, he⟩
      · simp only [Prod.mk.injEq] at he
        obtain ⟨rfl, rfl, rfl⟩ := he
        have hk := hkkt l (hin0 _ rfl) (fun e he => by cases he; exact le_rfl) hmax
        obtain ⟨h1, hi, -, hWi, -⟩ := caseA_reaches p hpd inv hinv f hf w W g hW l ii bi hlin
        have hf' : (f.erase ii).Nodup := hf.erase _
        have hni : ii ∉ f.erase ii := fun hc => (hf.mem_erase_iff.1 hc).1 rfl
        have hne' : f.erase ii ≠ [] := by
          intro hc
          have := congrArg List.length hc
          rw [List.length_erase_of_mem hi, List.length_nil] at this
          omega
        obtain ⟨hget, hoff⟩ := writeFree_get p hid (f.erase ii) hf'
          (computeW p (f.erase ii) Finv (meanOf p (f.erase ii)) w l).1 (Function.update w ii (p.store bi))
        set w' := writeFree p (f.erase ii) (computeW p (f.erase ii) Finv (meanOf p (f.erase ii)) w l).1
          (Function.update w ii (p.store bi)) with hw'
        have hwi : w' ii = bi := by rw [hoff ii hni, Function.update_self, hid]; rfl
        have hwk : ∀ k, k ∉ f → w' k = w k := fun k hk => by
          rw [hoff k (fun hc => hk (List.mem_of_mem_erase hc)), Function.update_of_ne]
          rintro rfl; exact hk hi
        obtain ⟨W', g', hF'⟩ := fam_exists p hpd inv hinv (f.erase ii) hf' hne' Finv hF w'
        obtain ⟨hG', eW, hl0'⟩ := hG.bind hpd hnt hinv hlin hk hli hwk hwi hF'
        refine ⟨l, _, hli, rfl, fun hsum => ⟨g l, ?_⟩, fun hc => absurd (by simpa using hc) hl0',
          fun _ => ⟨⟨W', g', hG'⟩, l0, W, g, hx, hG, hin0 _ rfl, hk, .inl ⟨ii, bi, hlin, hi, rfl⟩⟩⟩
        -- the point stored differs from the one computed only in the weight of the bound asset
        have hline := lineAt_line p hpd (f.erase ii) hf' hne' Finv (hinv _ _ _ hF).1 w l
        have hdiff : ∀ k, w' k = lineAt p (f.erase ii) Finv w l k + (if k = ii then bi - w ii else 0) := by
          intro k
          by_cases hkf : k ∈ f.erase ii
          · have hki : k ≠ ii := fun hc => hni (hc ▸ hkf)
            obtain ⟨a, rfl⟩ := List.get_of_mem hkf
            rw [hget a, lineAt_get p _ hf', if_neg hki, add_zero]
          · rw [hline.off k hkf]
            by_cases hki : k = ii
            · subst hki
              rw [hwi, if_pos rfl]; ring
            · rw [hoff k hkf, Function.update_of_ne hki, if_neg hki, add_zero]
        have hbi : bi = w ii := by
          rw [Finset.sum_congr rfl (fun k _ => hdiff k), Finset.sum_add_distrib, hline.sum,
            Finset.sum_ite_eq' Finset.univ ii, if_pos (Finset.mem_univ _)] at hsum
          linarith
        have e1 : w' = lineAt p (f.erase ii) Finv w l := by
          funext k
          rw [hdiff k, hbi, sub_self]; simp
        have hline' : Line p (f.erase ii) w' l w' (computeW p (f.erase ii) Finv (meanOf p (f.erase ii)) w l).2 :=
          ⟨fun _ _ => rfl, hsum, fun k hk => by rw [e1]; exact hline.free k hk⟩
        rw [hline'.unique hpd (hF'.line l), eW]
        exact ⟨hk, fun k hkm => (hW.line l).free k (List.mem_of_mem_erase hkm)⟩
      · simp only [Prod.mk.injEq] at he
        obtain ⟨rfl, rfl, rfl⟩ := he
        obtain ⟨hio, hfrees, -⟩ := hB1 l io rfl
        have hk := hkkt l (hout0 _ _ rfl).le hmax (fun e he => by cases he; exact le_rfl)
        have hf' : (f ++ [io]).Nodup := by
          rw [List.nodup_append]
          refine ⟨hf, by simp, ?_⟩
          intro a ha b hb hab
          simp only [List.mem_singleton] at hb
          exact hio (by rw [← hb, ← hab]; exact ha)
        have hne' : f ++ [io] ≠ [] := by simp
        obtain ⟨hget, hoff⟩ := writeFree_get p hid (f ++ [io]) hf'
          (computeW p (f ++ [io]) Finv (meanOf p (f ++ [io])) w0 l).1 w0
        set w' := writeFree p (f ++ [io]) (computeW p (f ++ [io]) Finv (meanOf p (f ++ [io])) w0 l).1 w0 with hw'
        obtain ⟨W', g', hF'⟩ := fam_exists p hpd inv hinv (f ++ [io]) hf' hne' Finv hF w'
        obtain ⟨hG', eW, eg⟩ := hG.unbind hpd hnt hinv hio hfrees hk hlo hoff hF'
        have hline := line_of_kkt p hpd (f ++ [io]) hf' hne' Finv (hinv _ _ _ hF).1 _ w0 w' l (fun _ => rfl) hget hoff
        have hline' : Line p (f ++ [io]) w' l w' (computeW p (f ++ [io]) Finv (meanOf p (f ++ [io])) w0 l).2 :=
          ⟨fun _ _ => rfl, hline.sum, hline.free⟩
        have ew := hline'.unique hpd (hF'.line l)
        have hkw : Kkt p l (g l) w' := by
          rw [ew, eW]
          exact hk
        have hfree : ∀ k, k ∈ f ++ [io] → marg p w' k = g l + l * p.mean k := by
          rw [ew, ← eg]
          exact (hF'.line l).free
        refine ⟨l, _, hlo, rfl, fun _ => ⟨g l, hkw, hfree⟩, fun hc => ?_,
          fun _ => ⟨⟨W', g', hG'⟩, l0, W, g, hx, hG, (hout0 _ _ rfl).le, hk, .inr ⟨io, hio, hfrees, hout0 _ _ rfl, rfl⟩⟩⟩
        have hl00 : l = 0 := by simpa using hc
        refine ⟨hl00, g l, ?_⟩
        rw [hl00] at hkw ⊢
        exact hkw

end Verif.Cla
