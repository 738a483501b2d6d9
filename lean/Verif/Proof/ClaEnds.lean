import Verif.Proof.ClaBest
import Mathlib.LinearAlgebra.Matrix.NonsingularInverse
import Mathlib.LinearAlgebra.Matrix.ToLinearEquiv

/-! The main loop of CLA ends. -/

set_option linter.unusedSectionVars false

namespace Verif.Cla
open Verif.Py

variable {K : Type} [Field K] [LinearOrder K] [IsStrictOrderedRing K]
variable {n : ℕ}

/-! ### No iteration gets stuck, except on a flat line -/

theorem covF_det (p : Problem n K) (hpd : PosDef p) (f : List (Fin n)) (hf : f.Nodup) : (covF p f).det ≠ 0 := by
  intro h
  obtain ⟨v, hv, h0⟩ := Matrix.exists_mulVec_eq_zero_iff.2 h
  have hAv : ∀ a, ∑ b, covF p f a b * v b = 0 := fun a => congrFun h0 a
  have hrow : ∀ i : Fin n, ∑ j, p.cov i j * embed f v j = ∑ b : Fin f.length, p.cov i (f.get b) * v b := by
    intro i
    rw [sum_split f hf, getB_sum_zero f _ (fun j hj => by rw [embed_not f v j hj, mul_zero]), add_zero]
    simp only [embed_get f hf]
  have hvar : var p (embed f v) = 0 := by
    unfold var
    rw [sum_split f hf, getB_sum_zero f _ (fun j hj => by rw [embed_not f v j hj, zero_mul]), add_zero]
    apply Finset.sum_eq_zero
    intro a _
    rw [embed_get f hf, hrow]
    have := hAv a
    simp only [covF] at this
    rw [this, mul_zero]
  obtain ⟨a, ha⟩ := Function.ne_iff.1 hv
  have := hpd (embed f v) ⟨f.get a, by rw [embed_get f hf]; exact ha⟩
  exact absurd hvar this.ne'

theorem inv_ok {p : Problem n K} (hpd : PosDef p) {inv : Inv K} (hc : inv.Complete) (f : List (Fin n)) (hf : f.Nodup) :
    ∃ Finv, inv f.length (covF p f) = .ok Finv := hc _ _ (covF_det p hpd f hf)

theorem nodup_snoc {f : List (Fin n)} (hf : f.Nodup) {i : Fin n} (hi : i ∉ f) : (f ++ [i]).Nodup := by
  rw [List.nodup_append]
  refine ⟨hf, by simp, ?_⟩
  intro a ha b hb hab
  simp only [List.mem_singleton] at hb
  exact hi (by rw [← hb, ← hab]; exact ha)

/-- No multiplier for an asset means that its weight does not depend on the multiplier. -/
theorem flat_of_none {p : Problem n K} (hpd : PosDef p) {f : List (Fin n)} (hf : f.Nodup) (h2 : 2 ≤ f.length)
    {Finv : Matrix (Fin f.length) (Fin f.length) K}
    (hi : ∀ i j, ∑ k, covF p f i k * Finv k j = if i = j then 1 else 0) (w : Fin n → K) (j : Fin f.length)
    (bi : BoundArg K) (h : computeLambda p f Finv (meanOf p f) w j bi = none) : ¬ NoFlat p := by
  intro hnf
  have hne : f ≠ [] := by rintro rfl; simp at h2
  have hg := onesDot_pos p hpd f hf hne Finv hi
  have a0 := computeW_affine p f Finv (meanOf p f) w 0 j hg.ne'
  have a1 := computeW_affine p f Finv (meanOf p f) w 1 j hg.ne'
  have hc0 : -onesDot Finv (fun _ => 1) * apply Finv (meanOf p f) j +
      onesDot Finv (meanOf p f) * apply Finv (fun _ => 1) j = 0 := by
    unfold computeLambda at h
    simp only at h
    split at h
    · assumption
    · split at h <;> cases h
  rw [hc0, mul_zero] at a0 a1
  have e := mul_left_cancel₀ hg.ne' (a1.trans a0.symm)
  have l0 := lineAt_line p hpd f hf hne Finv hi w 0
  have l1 := lineAt_line p hpd f hf hne Finv hi w 1
  refine hnf f.toFinset (f.get j) (fun k => lineAt p f Finv w 1 k - lineAt p f Finv w 0 k)
    ((computeW p f Finv (meanOf p f) w 1).2 - (computeW p f Finv (meanOf p f) w 0).2)
    (by rw [List.toFinset_card_of_nodup hf]; exact h2) (by simp) (fun k hk => ?_) ?_ (fun k hk => ?_) ?_
  · rw [List.mem_toFinset] at hk
    rw [l0.off k hk, l1.off k hk, sub_self]
  · rw [Finset.sum_sub_distrib, l0.sum, l1.sum, sub_self]
  · rw [List.mem_toFinset] at hk
    rw [marg_sub, l0.free k hk, l1.free k hk]; ring
  · rw [lineAt_get p f hf, lineAt_get p f hf, e, sub_self]

theorem stepB_total {p : Problem n K} (hpd : PosDef p) {inv : Inv K} (hinv : inv.Sound) (hc : inv.Complete)
    {f : List (Fin n)} (hf : f.Nodup) (hne : f ≠ []) (w : Fin n → K) (last : Option K) (best : Option (K × Fin n))
    {i : Fin n} (hi : i ∉ f) : (∃ r, stepB p inv f w last best i = .ok r) ∨
      (stepB p inv f w last best i = .error .typeError ∧ ¬ NoFlat p) := by
  have hf' := nodup_snoc hf hi
  obtain ⟨Finv, hF⟩ := inv_ok hpd hc (f ++ [i]) hf'
  unfold stepB
  rw [hF]
  simp only [bind, Except.bind]
  cases hL : computeLambda p (f ++ [i]) Finv (meanOf p (f ++ [i])) w ⟨f.length, by simp⟩ (.value (w i)) with
  | none =>
    refine .inr ⟨rfl, flat_of_none hpd hf' ?_ (hinv _ _ _ hF).1 w _ _ hL⟩
    have := List.length_pos_iff.2 hne
    simp only [List.length_append, List.length_singleton]; omega
  | some e => exact .inl ⟨_, rfl⟩

theorem caseB_total {p : Problem n K} (hpd : PosDef p) {inv : Inv K} (hinv : inv.Sound) (hc : inv.Complete)
    {f : List (Fin n)} (hf : f.Nodup) (hne : f ≠ []) (w : Fin n → K) (last : Option K) :
    (∃ r, caseB p inv f w last = .ok r) ∨ (caseB p inv f w last = .error .typeError ∧ ¬ NoFlat p) := by
  have key : ∀ (bs : List (Fin n)) (init : Option (K × Fin n)), (∀ i ∈ bs, i ∉ f) →
      (∃ r, bs.foldlM (stepB p inv f w last) init = .ok r) ∨
      (bs.foldlM (stepB p inv f w last) init = .error .typeError ∧ ¬ NoFlat p) := by
    intro bs
    induction bs with
    | nil => intro init _; exact .inl ⟨init, rfl⟩
    | cons a bs ih =>
      intro init hb
      rw [List.foldlM_cons]
      rcases stepB_total hpd hinv hc hf hne w last init (hb a (by simp)) with ⟨r, hr⟩ | ⟨he, hn⟩
      · rw [hr]
        exact ih r (fun i hi => hb i (by simp [hi]))
      · rw [he]
        exact .inr ⟨rfl, hn⟩
  unfold caseB
  split
  · exact key _ _ (fun i hi => by simpa [getB] using hi)
  · exact .inl ⟨none, rfl⟩

theorem step_total {p : Problem n K} (hpd : PosDef p) {inv : Inv K} (hinv : inv.Sound) (hc : inv.Complete)
    {f : List (Fin n)} (hf : f.Nodup) (hne : f ≠ []) (s : State n K) (w : Fin n → K) :
    (∃ x, solveStep p inv s f w = .ok x) ∨ (solveStep p inv s f w = .error .typeError ∧ ¬ NoFlat p) := by
  obtain ⟨Finv, hF⟩ := inv_ok hpd hc f hf
  unfold solveStep
  simp only [bind, Except.bind]
  cases hA : caseA p inv f (s.w.getLast?.getD w) with
  | error e =>
    unfold caseA at hA
    split at hA
    · rw [hF] at hA; cases hA
    · cases hA
  | ok lin =>
    rcases caseB_total hpd hinv hc hf hne (s.w.getLast?.getD w) s.ls.getLast?.join with ⟨lout, hB⟩ | ⟨hB, hn⟩
    swap
    · simp only [hB]
      exact .inr ⟨by trivial, hn⟩
    simp only [hB]
    split
    · rw [hF]; exact .inl ⟨_, rfl⟩
    · have hB1 := (C20_caseB_largest p inv f hf _ _ lout hB).1
      have hnd : (chooseLambda p lin lout f w).2.1.Nodup := by
        unfold chooseLambda
        split
        · split
          · exact hf.erase _
          · exact hf
        · split
          · exact nodup_snoc hf (hB1 _ _ rfl).1
          · exact hf
      obtain ⟨Finv', hF'⟩ := inv_ok hpd hc _ hnd
      rw [hF']
      exact .inl ⟨_, rfl⟩

/-! ### No line is taken twice -/

/-- A line: the free assets, and for the others whether they are at the upper bound. -/
abbrev Conf (n : ℕ) := Finset (Fin n) × (Fin n → Bool)

def wOf (p : Problem n K) (c : Conf n) : Fin n → K := fun i => if c.2 i then p.uB i else p.lB i

def confOf (p : Problem n K) (f : List (Fin n)) (w : Fin n → K) : Conf n := (f.toFinset, fun i => decide (w i = p.uB i))

/-- The line has an optimal portfolio at the multiplier. -/
def LiveAt (p : Problem n K) (c : Conf n) (l : K) : Prop :=
  ∃ W g, Line p c.1.toList (wOf p c) l W g ∧ Kkt p l g W

theorem live_iff {p : Problem n K} (hpd : PosDef p) {f : List (Fin n)} (hne : f ≠ []) {w : Fin n → K}
    (hbox : ∀ i, i ∉ f → w i = p.lB i ∨ w i = p.uB i) {W : K → Fin n → K} {g : K → K} (hF : Fam p f w W g) (l : K) :
    LiveAt p (confOf p f w) l ↔ Kkt p l (g l) (W l) := by
  have hw : ∀ i, i ∉ f → wOf p (confOf p f w) i = w i := by
    intro i hi
    unfold wOf confOf
    by_cases h : w i = p.uB i
    · simp [h]
    · rcases hbox i hi with e | e
      · simp only [decide_eq_false h, Bool.false_eq_true, if_false]
        exact e.symm
      · exact absurd e h
  have hm : ∀ i, i ∈ (confOf p f w).1.toList ↔ i ∈ f := fun i => by simp [confOf]
  constructor
  · rintro ⟨W1, g1, h1, hk⟩
    have h1' : Line p f w l W1 g1 :=
      ⟨fun i hi => by rw [h1.off i (by rwa [hm]), hw i hi], h1.sum, fun i hi => h1.free i ((hm i).2 hi)⟩
    have e := h1'.unique hpd (hF.line l)
    subst e
    rw [← h1'.level hne (hF.line l)]
    exact hk
  · intro hk
    refine ⟨W l, g l, ⟨fun i hi => ?_, (hF.line l).sum, fun i hi => (hF.line l).free i ((hm i).1 hi)⟩, hk⟩
    rw [hm] at hi
    rw [(hF.line l).off i hi, hw i hi]

/-- Below the multiplier at which it is left, a line has no optimal portfolios. -/
theorem left_dead {p : Problem n K} (hb : ∀ i, p.lB i < p.uB i) (hpd : PosDef p) {inv : Inv K} (hinv : inv.Sound)
    {f f' : List (Fin n)} {w : Fin n → K} {l0 l : K} {W : K → Fin n → K} {g : K → K} (hG : Good p f w l0 W g)
    (h : (∃ i b, caseA p inv f w = .ok (some (l, i, b)) ∧ i ∈ f ∧ f' = f.erase i) ∨
      (∃ i, i ∉ f ∧ Frees p inv f w i l ∧ l < l0 ∧ f' = f ++ [i])) (l' : K) (hl : l' < l) :
    ¬ Kkt p l' (g l') (W l') := by
  intro hk
  rcases h with ⟨i, b, hA, -, -⟩ | ⟨i, hi, hfr, hlt, -⟩
  · obtain ⟨-, -, -, -, h5⟩ := caseA_reaches p hpd inv hinv f hG.nodup w W g hG.fam l i b hA
    have := hk.1.1 i
    rcases h5 l' hl with ⟨-, h⟩ | ⟨-, h⟩ <;> linarith
  · have hz := frees_iff p hpd inv hinv f hG.nodup hG.ne w W g hG.fam i hi l hfr
    have hz1 := (hz l).2 rfl
    have a0 := hG.fam.gap_affine l0 i
    have a1 := hG.fam.gap_affine l i
    have a2 := hG.fam.gap_affine l' i
    have n0 : gap p W g l0 i ≠ 0 := fun h => hlt.ne ((hz l0).1 h).symm
    set s := gap p W g 1 i - gap p W g 0 i
    have e0 : gap p W g l0 i = (l0 - l) * s := by rw [a0]; rw [hz1] at a1; linarith
    have e2 : gap p W g l' i = (l' - l) * s := by rw [a2]; rw [hz1] at a1; linarith
    have p0 : 0 < l0 - l := by linarith
    have p1 : l' - l < 0 := by linarith
    obtain ⟨s1, s2⟩ := hG.sign i hi
    obtain ⟨k1, k2⟩ := hk.2 i
    rw [(hG.fam.line l').off i hi] at k1 k2
    have eg : gap p W g l' i = marg p (W l') i - (g l' + l' * p.mean i) := rfl
    rcases hG.box i hi with e | e
    · have hu : w i < p.uB i := by rw [e]; exact hb i
      have h1 : 0 < (l0 - l) * s := lt_of_le_of_ne (by rw [← e0]; exact s2 hu) (by rw [← e0]; exact n0.symm)
      have h2 : 0 < s := (mul_pos_iff_of_pos_left p0).1 h1
      have h3 := mul_neg_of_neg_of_pos p1 h2
      have := k2 hu
      linarith
    · have hu : p.lB i < w i := by rw [e]; exact hb i
      have h1 : (l0 - l) * s < 0 := lt_of_le_of_ne (by rw [← e0]; exact s1 hu) (by rw [← e0]; exact n0)
      have h2 : s < 0 := neg_of_mul_neg_right h1 p0.le
      have h3 := mul_pos_of_neg_of_neg p1 h2
      have := k1 hu
      linarith

open Classical in
/-- How many lines have optimal portfolios below the multiplier. -/
noncomputable def alive (p : Problem n K) (l : K) : ℕ :=
  (Finset.univ.filter (fun c : Conf n => ∃ l', l' < l ∧ LiveAt p c l')).card

theorem leaves_less {p : Problem n K} (hb : ∀ i, p.lB i < p.uB i) (hpd : PosDef p) {inv : Inv K} (hinv : inv.Sound)
    {f f' : List (Fin n)} {w w' : Fin n → K} {l0 l : K} (h : Leaves p inv f w (some l0) f' w' l) :
    alive p l < alive p l0 ∨ (l = l0 ∧ f'.length < f.length) := by
  obtain ⟨-, x, W, g, hx, hG, hle, hk, hev⟩ := h
  obtain rfl := hx l0 rfl
  rcases hle.lt_or_eq with hlt | rfl
  · left
    unfold alive
    apply Finset.card_lt_card
    rw [Finset.ssubset_iff_of_subset]
    · refine ⟨confOf p f w, ?_, ?_⟩
      · simp only [Finset.mem_filter, Finset.mem_univ, true_and]
        exact ⟨l, hlt, (live_iff hpd hG.ne hG.box hG.fam l).2 hk⟩
      · simp only [Finset.mem_filter, Finset.mem_univ, true_and]
        rintro ⟨l', hl', h'⟩
        exact left_dead hb hpd hinv hG hev l' hl' ((live_iff hpd hG.ne hG.box hG.fam l').1 h')
    · intro c hc
      simp only [Finset.mem_filter, Finset.mem_univ, true_and] at hc ⊢
      obtain ⟨l', hl', h'⟩ := hc
      exact ⟨l', hl'.trans hlt, h'⟩
  · right
    refine ⟨rfl, ?_⟩
    rcases hev with ⟨i, b, -, hi, rfl⟩ | ⟨i, -, -, hlt, -⟩
    · rw [List.length_erase_of_mem hi]
      have := List.length_pos_of_mem hi
      omega
    · exact absurd hlt (lt_irrefl _)

/-- From some number of iterations on, the loop is over: with success, or with the TypeError of a flat line. -/
def LoopEnds (p : Problem n K) (inv : Inv K) (s : State n K) (f : List (Fin n)) (w : Fin n → K) : Prop :=
  ∃ N s' r, (r = .ok () ∨ (r = .error .typeError ∧ ¬ NoFlat p)) ∧
    ∀ fuel, N ≤ fuel → solveLoop p inv fuel s f w = some (s', r)

theorem ends_of_step {p : Problem n K} (hid : p.store = id) (hb : ∀ i, p.lB i < p.uB i) (hpd : PosDef p) (hnt : NoTies p)
    {inv : Inv K} (hinv : inv.Sound) (hc : inv.Complete) {s : State n K} {f : List (Fin n)} {w : Fin n → K}
    (hlast : s.w.getLast? = some w) (hI : Follows p inv f w s.ls.getLast?.join)
    (hnext : ∀ s1 f1 w1 l, 0 ≤ l → s1.w.getLast? = some w1 → s1.ls.getLast?.join = some l →
      Leaves p inv f w s.ls.getLast?.join f1 w1 l → LoopEnds p inv s1 f1 w1) : LoopEnds p inv s f w := by
  rcases step_total hpd hinv hc hI.1 hI.2.1 s w with ⟨⟨s1, f1, w1, b⟩, hs⟩ | ⟨he, hn⟩
  · obtain ⟨l, g0, hl, rfl, -, -, hlv⟩ := follows_step hid (fun i => (hb i).le) hpd hnt hinv hlast hI hs
    cases b with
    | true =>
      refine ⟨1, ⟨s.w ++ [w1], s.ls ++ [some l], s.g ++ [some g0], s.f ++ [f1]⟩, .ok (), .inl rfl, fun fuel hf => ?_⟩
      obtain ⟨fuel, rfl⟩ : ∃ k, fuel = k + 1 := ⟨fuel - 1, by omega⟩
      rw [solveLoop, hs]
    | false =>
      obtain ⟨N, s', r, hr, hN⟩ := hnext ⟨s.w ++ [w1], s.ls ++ [some l], s.g ++ [some g0], s.f ++ [f1]⟩ f1 w1 l hl (by simp)
        (by simp) (hlv rfl)
      refine ⟨N + 1, s', r, hr, fun fuel hf => ?_⟩
      obtain ⟨fuel, rfl⟩ : ∃ k, fuel = k + 1 := ⟨fuel - 1, by omega⟩
      rw [solveLoop, hs]
      exact hN fuel (by omega)
  · refine ⟨1, s, .error .typeError, .inr ⟨rfl, hn⟩, fun fuel hf => ?_⟩
    obtain ⟨fuel, rfl⟩ : ∃ k, fuel = k + 1 := ⟨fuel - 1, by omega⟩
    rw [solveLoop, he]

theorem loop_ends {p : Problem n K} (hid : p.store = id) (hb : ∀ i, p.lB i < p.uB i) (hpd : PosDef p) (hnt : NoTies p)
    {inv : Inv K} (hinv : inv.Sound) (hc : inv.Complete) (a : ℕ) : ∀ (m : ℕ) (s : State n K) (f : List (Fin n))
    (w : Fin n → K) (l : K) (W : K → Fin n → K) (g : K → K), alive p l = a → f.length = m → 0 ≤ l →
    s.w.getLast? = some w → s.ls.getLast?.join = some l → Good p f w l W g → LoopEnds p inv s f w := by
  induction a using Nat.strong_induction_on with
  | _ a iha =>
    intro m
    induction m using Nat.strong_induction_on with
    | _ m ihm =>
      intro s f w l W g ha hm hl hw hls hG
      refine ends_of_step hid hb hpd hnt hinv hc hw (by rw [hls]; exact follows_good hl hG) ?_
      intro s1 f1 w1 l1 hl1 hw1 hls1 hlv
      rw [hls] at hlv
      obtain ⟨⟨W1, g1, hG1⟩, -⟩ := id hlv
      rcases leaves_less hb hpd hinv hlv with h | ⟨rfl, h⟩
      · exact iha _ (ha ▸ h) _ s1 f1 w1 l1 W1 g1 rfl rfl hl1 hw1 hls1 hG1
      · exact ihm _ (hm ▸ h) s1 f1 w1 l1 W1 g1 ha rfl hl1 hw1 hls1 hG1

theorem init_ends {p : Problem n K} (hid : p.store = id) (hb : ∀ i, p.lB i < p.uB i) (hpd : PosDef p) (hnt : NoTies p)
    {inv : Inv K} (hinv : inv.Sound) (hc : inv.Complete) {j : Fin n} {w : Fin n → K} (hj : InitOk p j w) {s : State n K}
    (hw : s.w.getLast? = some w) (hls : s.ls.getLast?.join = none) : LoopEnds p inv s [j] w := by
  refine ends_of_step hid hb hpd hnt hinv hc hw (by rw [hls]; exact follows_init hpd hinv hj) ?_
  intro s1 f1 w1 l1 hl1 hw1 hls1 hlv
  obtain ⟨⟨W1, g1, hG1⟩, -⟩ := hlv
  exact loop_ends hid hb hpd hnt hinv hc _ _ s1 f1 w1 l1 W1 g1 rfl rfl hl1 hw1 hls1 hG1

end Verif.Cla
