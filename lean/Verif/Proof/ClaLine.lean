import Verif.Props.ClaEvents
import Verif.Spec.ClaBest

/-! Critical lines: for a set of free assets and values for the others, the portfolios that are optimal in the free assets,
as the multiplier varies. -/

set_option linter.unusedSectionVars false

namespace Verif.Cla
open Verif.Py

variable {K : Type} [Field K] [LinearOrder K] [IsStrictOrderedRing K]
variable {n : ℕ}

/-- `W` agrees with `w` outside `f`, is fully invested, and its free assets are at the level `g`. -/
structure Line (p : Problem n K) (f : List (Fin n)) (w : Fin n → K) (l : K) (W : Fin n → K) (g : K) : Prop where
  off : ∀ i, i ∉ f → W i = w i
  sum : ∑ i, W i = 1
  free : ∀ i, i ∈ f → marg p W i = g + l * p.mean i

theorem marg_sub (p : Problem n K) (x y : Fin n → K) (i : Fin n) :
    marg p (fun k => x k - y k) i = marg p x i - marg p y i := by
  simp only [marg, mul_sub, Finset.sum_sub_distrib]

theorem marg_affine (p : Problem n K) (x y : Fin n → K) (l : K) (i : Fin n) :
    marg p (fun k => x k + l * (y k - x k)) i = marg p x i + l * (marg p y i - marg p x i) := by
  simp only [marg]
  rw [← Finset.sum_sub_distrib, Finset.mul_sum, ← Finset.sum_add_distrib]
  apply Finset.sum_congr rfl; intro k _; ring

theorem eq_of_var (p : Problem n K) (hpd : PosDef p) (x y : Fin n → K) (h : var p (fun k => x k - y k) ≤ 0) : x = y := by
  by_contra hne
  obtain ⟨i, hi⟩ := Function.ne_iff.1 hne
  exact absurd (hpd (fun k => x k - y k) ⟨i, sub_ne_zero.2 hi⟩) (not_lt.2 h)

theorem Line.unique {p : Problem n K} (hpd : PosDef p) {f : List (Fin n)} {w W W' : Fin n → K} {l g g' : K}
    (h : Line p f w l W g) (h' : Line p f w l W' g') : W = W' := by
  apply eq_of_var p hpd
  have e : var p (fun k => W k - W' k) = ∑ i, (W i - W' i) * (g - g') := by
    unfold var
    apply Finset.sum_congr rfl
    intro i _
    by_cases hi : i ∈ f
    · have := marg_sub p W W' i
      rw [h.free i hi, h'.free i hi] at this
      unfold marg at this
      rw [this]; ring
    · have e0 : W i - W' i = 0 := by rw [h.off i hi, h'.off i hi, sub_self]
      simp only [e0, zero_mul]
  rw [e, ← Finset.sum_mul, Finset.sum_sub_distrib, h.sum, h'.sum]
  simp

theorem Line.level {p : Problem n K} {f : List (Fin n)} (hne : f ≠ []) {w W : Fin n → K} {l g g' : K}
    (h : Line p f w l W g) (h' : Line p f w l W g') : g = g' := by
  obtain ⟨i, hi⟩ := List.exists_mem_of_ne_nil f hne
  have := (h.free i hi).symm.trans (h'.free i hi)
  linarith

/-- The computed weights put into the portfolio. -/
def lineAt (p : Problem n K) (f : List (Fin n)) (Finv : Matrix (Fin f.length) (Fin f.length) K) (w : Fin n → K) (l : K) :
    Fin n → K := fun i => if i ∈ f then embed f (computeW p f Finv (meanOf p f) w l).1 i else w i

theorem lineAt_get (p : Problem n K) (f : List (Fin n)) (hf : f.Nodup) (Finv : Matrix (Fin f.length) (Fin f.length) K)
    (w : Fin n → K) (l : K) (a : Fin f.length) :
    lineAt p f Finv w l (f.get a) = (computeW p f Finv (meanOf p f) w l).1 a := by
  unfold lineAt
  rw [if_pos (List.get_mem f a), embed_get f hf]

theorem line_of_kkt (p : Problem n K) (hpd : PosDef p) (f : List (Fin n)) (hf : f.Nodup) (hne : f ≠ [])
    (Finv : Matrix (Fin f.length) (Fin f.length) K)
    (hi : ∀ i j, ∑ k, covF p f i k * Finv k j = if i = j then 1 else 0) (meanF : Fin f.length → K) (w W : Fin n → K) (l : K)
    (hm : ∀ a, l * meanF a = l * p.mean (f.get a))
    (hWf : ∀ a, W (f.get a) = (computeW p f Finv meanF w l).1 a) (hWb : ∀ i, i ∉ f → W i = w i) :
    Line p f w l W (computeW p f Finv meanF w l).2 := by
  have hg2 := (onesDot_pos p hpd f hf hne Finv hi).ne'
  obtain ⟨h1, h2⟩ := computeW_kkt p f hf Finv hi hg2 meanF w l W hWf hWb
  refine ⟨hWb, h1, fun i him => ?_⟩
  obtain ⟨a, ha⟩ := List.get_of_mem him
  rw [← ha]
  have := h2 a
  rw [hm] at this
  exact this

theorem lineAt_line (p : Problem n K) (hpd : PosDef p) (f : List (Fin n)) (hf : f.Nodup) (hne : f ≠ [])
    (Finv : Matrix (Fin f.length) (Fin f.length) K)
    (hi : ∀ i j, ∑ k, covF p f i k * Finv k j = if i = j then 1 else 0) (w : Fin n → K) (l : K) :
    Line p f w l (lineAt p f Finv w l) (computeW p f Finv (meanOf p f) w l).2 :=
  line_of_kkt p hpd f hf hne Finv hi (meanOf p f) w _ l (fun _ => rfl) (lineAt_get p f hf Finv w l)
    (fun i hi => by unfold lineAt; rw [if_neg hi])

theorem Line.weight {p : Problem n K} (hpd : PosDef p) {f : List (Fin n)} (hf : f.Nodup) (hne : f ≠ [])
    {Finv : Matrix (Fin f.length) (Fin f.length) K}
    (hi : ∀ i j, ∑ k, covF p f i k * Finv k j = if i = j then 1 else 0) {w W : Fin n → K} {l g : K}
    (h : Line p f w l W g) (a : Fin f.length) : (computeW p f Finv (meanOf p f) w l).1 a = W (f.get a) := by
  rw [← lineAt_get p f hf, (lineAt_line p hpd f hf hne Finv hi w l).unique hpd h]

/-- A whole line: portfolios and levels for every multiplier, affine in it. -/
structure Fam (p : Problem n K) (f : List (Fin n)) (w : Fin n → K) (W : K → Fin n → K) (g : K → K) : Prop where
  line : ∀ l, Line p f w l (W l) (g l)
  weights : ∀ l i, W l i = W 0 i + l * (W 1 i - W 0 i)
  levels : ∀ l, g l = g 0 + l * (g 1 - g 0)

theorem fam_of (p : Problem n K) (f : List (Fin n)) (w W0 W1 : Fin n → K) (g0 g1 : K)
    (h0 : Line p f w 0 W0 g0) (h1 : Line p f w 1 W1 g1) :
    Fam p f w (fun l i => W0 i + l * (W1 i - W0 i)) (fun l => g0 + l * (g1 - g0)) := by
  refine ⟨fun l => ⟨fun i hi => ?_, ?_, fun i hi => ?_⟩, fun l i => by ring, fun l => by ring⟩
  · simp only [h0.off i hi, h1.off i hi]; ring
  · rw [Finset.sum_add_distrib, ← Finset.mul_sum, Finset.sum_sub_distrib, h0.sum, h1.sum]; ring
  · rw [marg_affine, h0.free i hi, h1.free i hi]; ring

theorem fam_exists (p : Problem n K) (hpd : PosDef p) (inv : Inv K) (hinv : inv.Sound) (f : List (Fin n)) (hf : f.Nodup)
    (hne : f ≠ []) (Finv : Matrix (Fin f.length) (Fin f.length) K) (hF : inv f.length (covF p f) = .ok Finv)
    (w : Fin n → K) : ∃ W g, Fam p f w W g :=
  ⟨_, _, fam_of p f w _ _ _ _ (lineAt_line p hpd f hf hne Finv (hinv _ _ _ hF).1 w 0)
    (lineAt_line p hpd f hf hne Finv (hinv _ _ _ hF).1 w 1)⟩

/-- How far asset `i` is above the level. -/
def gap (p : Problem n K) (W : K → Fin n → K) (g : K → K) (l : K) (i : Fin n) : K :=
  marg p (W l) i - (g l + l * p.mean i)

theorem Fam.gap_affine {p : Problem n K} {f : List (Fin n)} {w : Fin n → K} {W : K → Fin n → K} {g : K → K}
    (h : Fam p f w W g) (l : K) (i : Fin n) :
    gap p W g l i = gap p W g 0 i + l * (gap p W g 1 i - gap p W g 0 i) := by
  have e : W l = fun k => W 0 k + l * (W 1 k - W 0 k) := funext (h.weights l)
  unfold gap
  rw [e, marg_affine, h.levels l]
  ring

/-! ### Case a) -/

theorem caseA_event (p : Problem n K) (inv : Inv K) (f : List (Fin n)) (wl : Fin n → K) (l : K) (i : Fin n) (b : K)
    (h : caseA p inv f wl = .ok (some (l, i, b))) :
    1 < f.length ∧ ∃ Finv j, inv f.length (covF p f) = .ok Finv ∧ f.get j = i ∧
      computeLambda p f Finv (meanOf p f) wl j (.pair (p.lB i) (p.uB i)) = some (l, b) := by
  unfold caseA at h
  split at h
  · rename_i h1
    simp only [bind, Except.bind] at h
    split at h
    · cases h
    · rename_i Finv hF
      simp only [pure, Except.pure, Except.ok.injEq] at h
      refine ⟨h1, Finv, ?_⟩
      have hb := (foldl_best (fun j : Fin f.length =>
        (computeLambda p f Finv (meanOf p f) wl j (.pair (p.lB (f.get j)) (p.uB (f.get j)))).map
          (fun x => (x.1, f.get j, x.2))) (List.finRange f.length) none).1
      rcases hb with hb | ⟨j, -, hb, -⟩
      · exfalso
        have : some (l, i, b) = none := by
          rw [← h, ← hb]
          congr 1
          funext best j
          cases computeLambda p f Finv (meanOf p f) wl j (.pair (p.lB (f.get j)) (p.uB (f.get j))) <;> rfl
        cases this
      · have hb := hb.trans (b := _) (c := some (l, i, b)) (by
          rw [← h]
          congr 1
          funext best j
          cases computeLambda p f Finv (meanOf p f) wl j (.pair (p.lB (f.get j)) (p.uB (f.get j))) <;> rfl)
        cases hL : computeLambda p f Finv (meanOf p f) wl j (.pair (p.lB (f.get j)) (p.uB (f.get j))) with
        | none => rw [hL] at hb; cases hb
        | some e =>
          rw [hL] at hb
          simp only [Option.map_some, Option.some.injEq, Prod.mk.injEq] at hb
          obtain ⟨rfl, rfl, rfl⟩ := hb
          exact ⟨j, hF, rfl, hL⟩
  · cases h

/-- The asset chosen in case a) reaches its bound at the multiplier and is beyond it for smaller ones. -/
theorem caseA_reaches (p : Problem n K) (hpd : PosDef p) (inv : Inv K) (hinv : inv.Sound) (f : List (Fin n)) (hf : f.Nodup)
    (w : Fin n → K) (W : K → Fin n → K) (g : K → K) (hW : Fam p f w W g) (l : K) (i : Fin n) (b : K)
    (h : caseA p inv f w = .ok (some (l, i, b))) :
    1 < f.length ∧ i ∈ f ∧ (b = p.lB i ∨ b = p.uB i) ∧ W l i = b ∧
      ∀ l', l' < l → (b = p.uB i ∧ p.uB i < W l' i) ∨ (b = p.lB i ∧ W l' i < p.lB i) := by
  obtain ⟨h1, Finv, j, hF, rfl, hL⟩ := caseA_event p inv f w l i b h
  have hne : f ≠ [] := by rintro rfl; simp at h1
  have hi := (hinv _ _ _ hF).1
  refine ⟨h1, List.get_mem f j, ?_, ?_, fun l' hl' => ?_⟩
  · obtain ⟨c, -, -, hb, -⟩ := computeLambda_eq p f Finv _ w j _ l b hL
    simp only at hb
    rw [hb]; split
    · exact .inr rfl
    · exact .inl rfl
  · rw [← (hW.line l).weight hpd hf hne hi j]
    exact (C20_multiplier p hpd inv hinv f hf hne Finv hF w j _ l b hL l).2 rfl
  · rw [← (hW.line l').weight hpd hf hne hi j]
    exact C20_multiplier_leaves p hpd inv hinv f hf hne Finv hF w j _ _ l b hL l' hl'

/-- Going down to a multiplier not below that of case a), the free assets stay within their bounds. -/
theorem caseA_stays (p : Problem n K) (hpd : PosDef p) (inv : Inv K) (hinv : inv.Sound) (f : List (Fin n)) (hf : f.Nodup)
    (hne : f ≠ []) (w : Fin n → K) (W : K → Fin n → K) (g : K → K) (hW : Fam p f w W g) (lin : Option (K × Fin n × K))
    (h : caseA p inv f w = .ok lin) (l0 l : K) (hl : l ≤ l0) (hin : ∀ e, lin = some e → e.1 ≤ l) (i : Fin n) (hi : i ∈ f)
    (h0 : p.lB i ≤ W l0 i ∧ W l0 i ≤ p.uB i) : p.lB i ≤ W l i ∧ W l i ≤ p.uB i := by
  by_cases h1 : 1 < f.length
  · obtain ⟨Finv, hF⟩ : ∃ Finv, inv f.length (covF p f) = .ok Finv := by
      unfold caseA at h
      rw [if_pos h1] at h
      cases hF : inv f.length (covF p f) with
      | error e => rw [hF] at h; cases h
      | ok Finv => exact ⟨Finv, rfl⟩
    have hiv := (hinv _ _ _ hF).1
    obtain ⟨j, rfl⟩ := List.get_of_mem hi
    cases lin with
    | some e =>
      obtain ⟨l1, i1, b1⟩ := e
      have := C20_free_stay_within p hpd inv hinv f hf h1 Finv hF w l1 i1 b1 h l0 j
        (by rw [(hW.line l0).weight hpd hf hne hiv j]; exact h0) l (hin _ rfl) hl
      rwa [(hW.line l).weight hpd hf hne hiv j] at this
    | none =>
      have hN : computeLambda p f Finv (meanOf p f) w j (.pair (p.lB (f.get j)) (p.uB (f.get j))) = none := by
        cases hL : computeLambda p f Finv (meanOf p f) w j (.pair (p.lB (f.get j)) (p.uB (f.get j))) with
        | none => rfl
        | some e =>
          obtain ⟨l', b'⟩ := e
          obtain ⟨_, _, _, h2, -⟩ := C20_caseA_largest p inv f w h1 Finv hF _ h j l' b' hL
          cases h2
      have hg := onesDot_pos p hpd f hf hne Finv hiv
      have a0 := computeW_affine p f Finv (meanOf p f) w l0 j hg.ne'
      have a1 := computeW_affine p f Finv (meanOf p f) w l j hg.ne'
      have hc0 : -onesDot Finv (fun _ => 1) * apply Finv (meanOf p f) j +
          onesDot Finv (meanOf p f) * apply Finv (fun _ => 1) j = 0 := by
        unfold computeLambda at hN
        simp only at hN
        split at hN
        · assumption
        · split at hN <;> cases hN
      rw [hc0, mul_zero] at a0 a1
      have := mul_left_cancel₀ hg.ne' (a1.trans a0.symm)
      rw [(hW.line l).weight hpd hf hne hiv j, (hW.line l0).weight hpd hf hne hiv j] at this
      rw [this]; exact h0
  · obtain ⟨j, rfl⟩ : ∃ j, f = [j] := by
      rcases f with _ | ⟨j, f⟩
      · exact absurd rfl hne
      · rcases f with _ | ⟨k, f⟩
        · exact ⟨j, rfl⟩
        · simp at h1
    have hij : i = j := by simpa using hi
    subst hij
    have key : ∀ l, W l i = 1 - ∑ k, (if k = i then 0 else w k) := by
      intro l
      have e : ∀ k, W l k = (if k = i then W l i else 0) + (if k = i then 0 else w k) := by
        intro k
        by_cases hk : k = i
        · subst hk; simp
        · rw [if_neg hk, if_neg hk, (hW.line l).off k (by simpa using hk), zero_add]
      have := (hW.line l).sum
      rw [Finset.sum_congr rfl (fun k _ => e k), Finset.sum_add_distrib] at this
      rw [Finset.sum_ite_eq' Finset.univ i, if_pos (Finset.mem_univ _)] at this
      linarith
    rw [key l, ← key l0]; exact h0

/-! ### Case b) -/

theorem caseB_frees (p : Problem n K) (inv : Inv K) (f : List (Fin n)) (hf : f.Nodup) (w : Fin n → K) (last : Option K)
    (r : Option (K × Fin n)) (h : caseB p inv f w last = .ok r) (i : Fin n) (hi : i ∉ f) : ∃ l, Frees p inv f w i l := by
  have key : ∀ (bs : List (Fin n)) (init r : Option (K × Fin n)), bs.foldlM (stepB p inv f w last) init = .ok r →
      ∀ i ∈ bs, ∃ l, Frees p inv f w i l := by
    intro bs
    induction bs with
    | nil => intro _ _ _ i hi; cases hi
    | cons a bs ih =>
      intro init r h i hi
      rw [List.foldlM_cons] at h
      cases hn : stepB p inv f w last init a with
      | error e => rw [hn] at h; cases h
      | ok nxt =>
        rw [hn] at h
        rcases List.mem_cons.1 hi with rfl | hi
        · unfold stepB at hn
          cases hF : inv (f ++ [i]).length (covF p (f ++ [i])) with
          | error e => rw [hF] at hn; cases hn
          | ok Finv =>
            rw [hF] at hn
            simp only [bind, Except.bind, pure, Except.pure] at hn
            cases hL : computeLambda p (f ++ [i]) Finv (meanOf p (f ++ [i])) w ⟨f.length, by simp⟩ (.value (w i)) with
            | none => rw [hL] at hn; cases hn
            | some e => exact ⟨e.1, Finv, e.2, hF, hL⟩
        · exact ih nxt r h i hi
  unfold caseB at h
  split at h
  · exact key _ _ _ h i (by simp [getB, hi])
  · rename_i hlt
    exfalso
    apply hlt
    have : (i :: f).Nodup := List.nodup_cons.2 ⟨hi, hf⟩
    have := this.length_le_card
    simp only [List.length_cons, Fintype.card_fin] at this
    omega

/-- The multiplier of case b) is the one at which the asset is at the level. -/
theorem frees_iff (p : Problem n K) (hpd : PosDef p) (inv : Inv K) (hinv : inv.Sound) (f : List (Fin n)) (hf : f.Nodup)
    (hne : f ≠ []) (w : Fin n → K) (W : K → Fin n → K) (g : K → K) (hW : Fam p f w W g) (i : Fin n) (hi : i ∉ f) (l : K)
    (h : Frees p inv f w i l) (l' : K) : gap p W g l' i = 0 ↔ l' = l := by
  obtain ⟨Finv, b, hF, hL⟩ := h
  have hf' : (f ++ [i]).Nodup := by
    rw [List.nodup_append]
    refine ⟨hf, by simp, ?_⟩
    intro a ha b hb hab
    simp only [List.mem_singleton] at hb
    exact hi (by rw [← hb, ← hab]; exact ha)
  have hne' : f ++ [i] ≠ [] := by simp
  have hiv := (hinv _ _ _ hF).1
  have hb : b = w i := by
    obtain ⟨c, -, -, hb, -⟩ := computeLambda_eq p (f ++ [i]) Finv _ w _ _ l b hL
    exact hb
  have hM := C20_multiplier p hpd inv hinv (f ++ [i]) hf' hne' Finv hF w ⟨f.length, by simp⟩ _ l b hL
  have hget : (f ++ [i]).get ⟨f.length, by simp⟩ = i := by simp
  constructor
  · intro h0
    have hline : Line p (f ++ [i]) w l' (W l') (g l') := by
      refine ⟨fun k hk => (hW.line l').off k (fun h => hk (by simp [h])), (hW.line l').sum, fun k hk => ?_⟩
      rcases List.mem_append.1 hk with hk | hk
      · exact (hW.line l').free k hk
      · rw [List.mem_singleton] at hk
        subst hk
        unfold gap at h0
        linarith
    apply (hM l').1
    rw [hline.weight hpd hf' hne' hiv, hget, hb]
    exact (hW.line l').off i hi
  · rintro rfl
    have hline := lineAt_line p hpd (f ++ [i]) hf' hne' Finv hiv w l'
    have hwi : lineAt p (f ++ [i]) Finv w l' i = w i := by
      have := lineAt_get p (f ++ [i]) hf' Finv w l' ⟨f.length, by simp⟩
      rw [hget] at this
      rw [this, (hM l').2 rfl, hb]
    have hline' : Line p f w l' (lineAt p (f ++ [i]) Finv w l') (computeW p (f ++ [i]) Finv (meanOf p (f ++ [i])) w l').2 := by
      refine ⟨fun k hk => ?_, hline.sum, fun k hk => hline.free k (by simp [hk])⟩
      by_cases hki : k = i
      · rw [hki, hwi]
      · exact hline.off k (by simp [hk, hki])
    have e := hline'.unique hpd (hW.line l')
    have e2 := (e ▸ hline').level hne (hW.line l')
    have := hline.free i (by simp)
    rw [e, e2] at this
    unfold gap
    linarith

end Verif.Cla
