import Verif.Model.Hrp
import Verif.Proof.Py
import Mathlib.Tactic.Linarith
import Mathlib.Tactic.Ring
import Mathlib.Tactic.FieldSimp
import Mathlib.Tactic.Positivity
import Mathlib.Algebra.BigOperators.Group.List.Lemmas
import Mathlib.Algebra.BigOperators.Ring.List
import Mathlib.Data.List.Perm.Basic

/-! Recursive description of the HRP loop, and the leaf order of a linkage matrix. -/

set_option linter.unusedSectionVars false

namespace Verif.Hrp
open Verif.Py Verif.Base

section Raw
variable {κ : Type} [DecidableEq κ]
variable {K : Type} [Field K] [LinearOrder K] [IsStrictOrderedRing K]

/-- A series over a fixed index. -/
def ser (idx : List κ) (f : κ → K) : Dict κ K := idx.map (fun t => (t, f t))

theorem scale_ser (idx : List κ) (f : κ → K) (items : List κ) (a : K) :
    scale (ser idx f) items a = ser idx (fun t => if t ∈ items then f t * a else f t) := by
  simp only [scale, ser, List.map_map]
  apply List.map_congr_left
  intro t _
  simp only [Function.comp]
  split <;> rfl

/-- The weight `1 - v1/(v1+v2)` of the first half of a cluster. -/
def alphaOf (cov : κ → κ → K) (l : List κ) : K :=
  1 - clusterVar cov (l.take (l.length / 2)) /
    (clusterVar cov (l.take (l.length / 2)) + clusterVar cov (l.drop (l.length / 2)))

/-- Recursive share of a ticker within a cluster. -/
def share (cov : κ → κ → K) (l : List κ) (t : κ) : K :=
  if h : 1 < l.length then
    if t ∈ l.take (l.length / 2) then alphaOf cov l * share cov (l.take (l.length / 2)) t
    else (1 - alphaOf cov l) * share cov (l.drop (l.length / 2)) t
  else 1
termination_by l.length
decreasing_by
  · simp only [List.length_take]; omega
  · simp only [List.length_drop]; omega

theorem share_small (cov : κ → κ → K) {l : List κ} (h : ¬ 1 < l.length) (t : κ) :
    share cov l t = 1 := by
  rw [share]; simp [h]

theorem share_take (cov : κ → κ → K) {l : List κ} (h : 1 < l.length) {t : κ}
    (ht : t ∈ l.take (l.length / 2)) :
    share cov l t = alphaOf cov l * share cov (l.take (l.length / 2)) t := by
  rw [share]; simp [h, ht]

theorem not_mem_take {l : List κ} (hn : l.Nodup) {k : ℕ} {t : κ} (ht : t ∈ l.drop k) :
    t ∉ l.take k := by
  intro h
  have : (l.take k ++ l.drop k).Nodup := by rw [List.take_append_drop]; exact hn
  exact (List.nodup_append.1 this).2.2 t h t ht rfl

theorem share_drop (cov : κ → κ → K) {l : List κ} (h : 1 < l.length) (hn : l.Nodup) {t : κ}
    (ht : t ∈ l.drop (l.length / 2)) :
    share cov l t = (1 - alphaOf cov l) * share cov (l.drop (l.length / 2)) t := by
  rw [share]; simp [h, not_mem_take hn ht]

/-- Clusters that are duplicate-free and mutually disjoint. -/
def Good (cs : List (List κ)) : Prop := (∀ c ∈ cs, c.Nodup) ∧ cs.Pairwise List.Disjoint

theorem bisect_cons (c : List κ) (cs : List (List κ)) :
    bisect (c :: cs) = (if 1 < c.length then [c.take (c.length / 2), c.drop (c.length / 2)] else []) ++
      bisect cs := by
  simp [bisect]

theorem mem_bisect {cs : List (List κ)} {d : List κ} (h : d ∈ bisect cs) :
    ∃ c ∈ cs, 1 < c.length ∧ (d = c.take (c.length / 2) ∨ d = c.drop (c.length / 2)) := by
  simp only [bisect, List.mem_flatMap] at h
  obtain ⟨c, hc, hd⟩ := h
  split at hd
  · rename_i hl
    refine ⟨c, hc, hl, ?_⟩
    simpa using hd
  · simp at hd

theorem good_bisect {cs : List (List κ)} (h : Good cs) : Good (bisect cs) := by
  induction cs with
  | nil => simp [bisect, Good]
  | cons c cs ih =>
    have hg : Good cs := ⟨fun d hd => h.1 d (by simp [hd]), (List.pairwise_cons.1 h.2).2⟩
    have ihg := ih hg
    have hc := h.1 c (by simp)
    have hdis := (List.pairwise_cons.1 h.2).1
    have sub : ∀ d, d = c.take (c.length / 2) ∨ d = c.drop (c.length / 2) → d ⊆ c := by
      rintro d (rfl | rfl)
      · exact List.take_subset _ _
      · exact List.drop_subset _ _
    have hd2 : ∀ d ∈ bisect cs, ∀ e, e ⊆ c → List.Disjoint e d := by
      intro d hd e he
      obtain ⟨c', hc', -, hx⟩ := mem_bisect hd
      have : d ⊆ c' := by
        rcases hx with rfl | rfl
        · exact List.take_subset _ _
        · exact List.drop_subset _ _
      intro t h1 h2
      exact hdis c' hc' (he h1) (this h2)
    rw [bisect_cons]
    split
    · refine ⟨?_, ?_⟩
      · intro d hd
        simp only [List.cons_append, List.nil_append, List.mem_cons] at hd
        rcases hd with rfl | rfl | hd
        · exact hc.sublist (List.take_sublist _ _)
        · exact hc.sublist (List.drop_sublist _ _)
        · exact ihg.1 d hd
      · simp only [List.cons_append, List.nil_append, List.pairwise_cons, List.mem_cons]
        refine ⟨?_, ?_, ihg.2⟩
        · rintro d (rfl | hd)
          · intro t h1 h2; exact not_mem_take hc h2 h1
          · exact hd2 d hd _ (List.take_subset _ _)
        · intro d hd; exact hd2 d hd _ (List.drop_subset _ _)
    · simpa using ihg

theorem splitPairs_bisect (cov : κ → κ → K) (idx : List κ) (cs : List (List κ)) (hg : Good cs)
    (f : κ → K) :
    ∃ g, splitPairs cov (ser idx f) (bisect cs) = ser idx g ∧
      (∀ c ∈ cs, 1 < c.length → ∀ t,
        (t ∈ c.take (c.length / 2) → g t = f t * alphaOf cov c) ∧
        (t ∈ c.drop (c.length / 2) → g t = f t * (1 - alphaOf cov c))) ∧
      (∀ t, (∀ c ∈ cs, t ∈ c → ¬ 1 < c.length) → g t = f t) := by
  induction cs generalizing f with
  | nil => exact ⟨f, rfl, by simp, fun _ _ => rfl⟩
  | cons c cs ih =>
    have hgs : Good cs := ⟨fun d hd => hg.1 d (by simp [hd]), (List.pairwise_cons.1 hg.2).2⟩
    have hdis := (List.pairwise_cons.1 hg.2).1
    have hcn := hg.1 c (by simp)
    rw [bisect_cons]
    by_cases hl : 1 < c.length
    · rw [if_pos hl]
      simp only [List.cons_append, List.nil_append, splitPairs]
      rw [scale_ser, scale_ser]
      obtain ⟨g, hs, h1, h2⟩ := ih hgs (fun t => if t ∈ c.drop (c.length / 2) then
        (if t ∈ c.take (c.length / 2) then f t * alphaOf cov c else f t) * (1 - alphaOf cov c)
        else (if t ∈ c.take (c.length / 2) then f t * alphaOf cov c else f t))
      refine ⟨g, hs, ?_, ?_⟩
      · intro d hd hdl t
        rcases List.mem_cons.1 hd with rfl | hd
        · have hout : t ∈ d → g t = _ := fun ht => h2 t (fun c' hc' ht' => absurd ht' (hdis c' hc' ht))
          constructor
          · intro ht
            have hnd : t ∉ d.drop (d.length / 2) := fun h => not_mem_take hcn h ht
            rw [hout (List.take_subset _ _ ht)]
            simp [ht, hnd]
          · intro ht
            have hnt := not_mem_take hcn ht
            rw [hout (List.drop_subset _ _ ht)]
            simp [ht, hnt]
        · obtain ⟨a, b⟩ := h1 d hd hdl t
          have hx : t ∈ d → t ∉ c := fun h h' => hdis d hd h' h
          constructor
          · intro ht
            rw [a ht]
            have := hx (List.take_subset _ _ ht)
            rw [if_neg (fun h => this (List.drop_subset _ _ h)), if_neg (fun h => this (List.take_subset _ _ h))]
          · intro ht
            rw [b ht]
            have := hx (List.drop_subset _ _ ht)
            rw [if_neg (fun h => this (List.drop_subset _ _ h)), if_neg (fun h => this (List.take_subset _ _ h))]
      · intro t ht
        have hc : t ∉ c := fun h => ht c (by simp) h hl
        rw [h2 t (fun c' hc' => ht c' (by simp [hc']))]
        rw [if_neg (fun h => hc (List.drop_subset _ _ h)), if_neg (fun h => hc (List.take_subset _ _ h))]
    · rw [if_neg hl]
      simp only [List.nil_append]
      obtain ⟨g, hs, h1, h2⟩ := ih hgs f
      refine ⟨g, hs, ?_, ?_⟩
      · intro d hd hdl t
        rcases List.mem_cons.1 hd with rfl | hd
        · exact absurd hdl hl
        · exact h1 d hd hdl t
      · intro t ht
        exact h2 t (fun c' hc' => ht c' (by simp [hc']))

theorem loop_spec (cov : κ → κ → K) (idx : List κ) (k : ℕ) : ∀ (fuel : ℕ) (cs : List (List κ))
    (f : κ → K), Good cs → (∀ c ∈ cs, c.length ≤ k) → k + 2 ≤ fuel →
    ∃ g, loop cov fuel (ser idx f) cs = some (ser idx g) ∧
      (∀ c ∈ cs, ∀ t ∈ c, g t = f t * share cov c t) ∧
      (∀ t, (∀ c ∈ cs, t ∉ c) → g t = f t) := by
  induction k with
  | zero =>
    intro fuel cs f hg hlen hf
    obtain ⟨fuel, rfl⟩ : ∃ m, fuel = m + 2 := ⟨fuel - 2, by omega⟩
    have hb : bisect cs = [] := by
      rw [List.eq_nil_iff_forall_not_mem]
      intro d hd
      obtain ⟨c, hc, hl, -⟩ := mem_bisect hd
      have := hlen c hc
      omega
    refine ⟨f, ?_, ?_, fun _ _ => rfl⟩
    · rw [loop]
      split
      · rw [hb]; simp [splitPairs, loop]
      · rfl
    · intro c hc t ht
      have := hlen c hc
      rw [share_small cov (by omega), mul_one]
  | succ k ih =>
    intro fuel cs f hg hlen hf
    obtain ⟨fuel, rfl⟩ : ∃ m, fuel = m + 1 := ⟨fuel - 1, by omega⟩
    rw [loop]
    split
    · obtain ⟨f', hs, h1, h2⟩ := splitPairs_bisect cov idx cs hg f
      obtain ⟨g, hl, g1, g2⟩ := ih fuel (bisect cs) f' (good_bisect hg)
        (by
          intro d hd
          obtain ⟨c, hc, hcl, hx⟩ := mem_bisect hd
          have := hlen c hc
          rcases hx with rfl | rfl
          · simp only [List.length_take]; omega
          · simp only [List.length_drop]; omega) (by omega)
      rw [hs]
      refine ⟨g, hl, ?_, ?_⟩
      · intro c hc t ht
        by_cases hcl : 1 < c.length
        · have hm : ∀ d, (d = c.take (c.length / 2) ∨ d = c.drop (c.length / 2)) → d ∈ bisect cs := by
            intro d hd
            simp only [bisect, List.mem_flatMap]
            refine ⟨c, hc, ?_⟩
            rw [if_pos hcl]; simpa using hd
          have hor : t ∈ c.take (c.length / 2) ∨ t ∈ c.drop (c.length / 2) := by
            rw [← List.mem_append, List.take_append_drop]; exact ht
          rcases hor with h | h
          · rw [g1 _ (hm _ (.inl rfl)) t h, (h1 c hc hcl t).1 h, share_take cov hcl h]; ring
          · rw [g1 _ (hm _ (.inr rfl)) t h, (h1 c hc hcl t).2 h,
              share_drop cov hcl (hg.1 c hc) h]; ring
        · rw [share_small cov hcl, mul_one]
          have honly : ∀ c' ∈ cs, t ∈ c' → c' = c := by
            intro c' hc' ht'
            by_contra hne
            have : Std.Symm (List.Disjoint (α := κ)) := ⟨fun _ _ h => h.symm⟩
            exact hg.2.forall hc' hc hne ht' ht
          rw [g2 t, h2 t]
          · intro c' hc' ht'
            rw [honly c' hc' ht']; exact hcl
          · intro d hd htd
            obtain ⟨c', hc', hl', hx⟩ := mem_bisect hd
            have : t ∈ c' := by
              rcases hx with rfl | rfl
              · exact List.take_subset _ _ htd
              · exact List.drop_subset _ _ htd
            rw [honly c' hc' this] at hl'
            exact hcl hl'
      · intro t ht
        rw [g2 t, h2 t]
        · intro c hc htc; exact absurd htc (ht c hc)
        · intro d hd htd
          obtain ⟨c', hc', hl', hx⟩ := mem_bisect hd
          apply ht c' hc'
          rcases hx with rfl | rfl
          · exact List.take_subset _ _ htd
          · exact List.drop_subset _ _ htd
    · rename_i hz
      have : cs = [] := by
        cases cs with
        | nil => rfl
        | cons c cs => simp at hz
      subst this
      exact ⟨f, rfl, by simp, fun _ _ => rfl⟩

/-- The loop finishes, and every ticker gets its recursive share. -/
theorem rawAllocation_eq (cov : κ → κ → K) (l : List κ) (hn : l.Nodup) (fuel : ℕ)
    (hf : l.length + 2 ≤ fuel) :
    rawAllocation fuel cov l = some (l.map (fun t => (t, share cov l t))) := by
  obtain ⟨g, h, h1, -⟩ := loop_spec cov l l.length fuel [l] (fun _ => 1)
    ⟨by simpa using hn, by simp⟩ (by simp) hf
  unfold rawAllocation
  change loop cov fuel (ser l fun _ => 1) [l] = _
  rw [h]
  congr 1
  apply List.map_congr_left
  intro t ht
  rw [h1 l (by simp) t ht, one_mul]

theorem sum_share (cov : κ → κ → K) : ∀ (n : ℕ) (l : List κ), l.length = n → l.Nodup → l ≠ [] →
    (l.map (share cov l)).sum = 1 := by
  intro n
  induction n using Nat.strong_induction_on with
  | _ n ih =>
    intro l hl hn hne
    by_cases h : 1 < l.length
    · have e : l.map (share cov l) =
          (l.take (l.length / 2)).map (share cov l) ++ (l.drop (l.length / 2)).map (share cov l) := by
        rw [← List.map_append, List.take_append_drop]
      have e1 : (l.take (l.length / 2)).map (share cov l) =
          (l.take (l.length / 2)).map (fun t => alphaOf cov l * share cov (l.take (l.length / 2)) t) :=
        List.map_congr_left (fun t ht => share_take cov h ht)
      have e2 : (l.drop (l.length / 2)).map (share cov l) =
          (l.drop (l.length / 2)).map (fun t => (1 - alphaOf cov l) * share cov (l.drop (l.length / 2)) t) :=
        List.map_congr_left (fun t ht => share_drop cov h hn ht)
      rw [e, List.sum_append, e1, e2, List.sum_map_mul_left, List.sum_map_mul_left]
      rw [ih (l.take (l.length / 2)).length (by simp only [List.length_take]; omega) _ rfl
        (hn.sublist (List.take_sublist _ _)) (by
          intro h0; have := congrArg List.length h0; simp only [List.length_take, List.length_nil] at this; omega)]
      rw [ih (l.drop (l.length / 2)).length (by simp only [List.length_drop]; omega) _ rfl
        (hn.sublist (List.drop_sublist _ _)) (by
          intro h0; have := congrArg List.length h0; simp only [List.length_drop, List.length_nil] at this; omega)]
      ring
    · have h1 : l.length = 1 := by
        have := List.length_pos_iff.2 hne; omega
      obtain ⟨a, rfl⟩ := List.length_eq_one_iff.1 h1
      simp [share_small cov h]

/-- The clusters met while bisecting `root`. -/
inductive Node (root : List κ) : List κ → Prop
  | root : Node root root
  | left {c} : Node root c → 1 < c.length → Node root (c.take (c.length / 2))
  | right {c} : Node root c → 1 < c.length → Node root (c.drop (c.length / 2))

theorem Node.trans {a b c : List κ} (h1 : Node a b) (h2 : Node b c) : Node a c := by
  induction h2 with
  | root => exact h1
  | left _ hl ih => exact ih.left hl
  | right _ hl ih => exact ih.right hl

theorem Node.sublist {root c : List κ} (h : Node root c) : c.Sublist root := by
  induction h with
  | root => exact List.Sublist.refl _
  | left _ _ ih => exact (List.take_sublist _ _).trans ih
  | right _ _ ih => exact (List.drop_sublist _ _).trans ih

theorem Node.ne_nil {root c : List κ} (h : Node root c) (hr : root ≠ []) : c ≠ [] := by
  cases h with
  | root => exact hr
  | left _ hl =>
    intro h0; have := congrArg List.length h0; simp only [List.length_take, List.length_nil] at this; omega
  | right _ hl =>
    intro h0; have := congrArg List.length h0; simp only [List.length_drop, List.length_nil] at this; omega

theorem alphaOf_pos (cov : κ → κ → K) (l : List κ)
    (h1 : 0 < clusterVar cov (l.take (l.length / 2))) (h2 : 0 < clusterVar cov (l.drop (l.length / 2))) :
    0 < alphaOf cov l ∧ alphaOf cov l < 1 := by
  unfold alphaOf
  constructor
  · rw [sub_pos, div_lt_one (by linarith)]; linarith
  · have := div_pos h1 (add_pos h1 h2); linarith

theorem share_pos (cov : κ → κ → K) : ∀ (n : ℕ) (l : List κ), l.length = n → l.Nodup →
    (∀ c, Node l c → 0 < clusterVar cov c) → ∀ t ∈ l, 0 < share cov l t := by
  intro n
  induction n using Nat.strong_induction_on with
  | _ n ih =>
    intro l hl hn hv t ht
    by_cases h : 1 < l.length
    · have ha := alphaOf_pos cov l (hv _ (Node.root.left h)) (hv _ (Node.root.right h))
      have hor : t ∈ l.take (l.length / 2) ∨ t ∈ l.drop (l.length / 2) := by
        rw [← List.mem_append, List.take_append_drop]; exact ht
      rcases hor with hm | hm
      · rw [share_take cov h hm]
        refine mul_pos ha.1 (ih _ (by simp only [List.length_take]; omega) _ rfl
          (hn.sublist (List.take_sublist _ _)) (fun c hc => hv c ((Node.root.left h).trans hc)) t hm)
      · rw [share_drop cov h hn hm]
        refine mul_pos (by linarith) (ih _ (by simp only [List.length_drop]; omega) _ rfl
          (hn.sublist (List.drop_sublist _ _)) (fun c hc => hv c ((Node.root.right h).trans hc)) t hm)
    · rw [share_small cov h]; exact one_pos

theorem share_node (cov : κ → κ → K) {root c : List κ} (h : Node root c) (hn : root.Nodup) :
    ∃ k : K, ∀ t ∈ c, share cov root t = k * share cov c t := by
  induction h with
  | root => exact ⟨1, by simp⟩
  | @left d hd hl ih =>
    obtain ⟨k, hk⟩ := ih
    refine ⟨k * alphaOf cov d, fun t ht => ?_⟩
    rw [hk t (List.take_subset _ _ ht), share_take cov hl ht]; ring
  | @right d hd hl ih =>
    obtain ⟨k, hk⟩ := ih
    refine ⟨k * (1 - alphaOf cov d), fun t ht => ?_⟩
    rw [hk t (List.drop_subset _ _ ht), share_drop cov hl (hn.sublist hd.sublist) ht]; ring

theorem share_split (cov : κ → κ → K) {root c : List κ} (h : Node root c) (hn : root.Nodup)
    (hl : 1 < c.length)
    (hv : clusterVar cov (c.take (c.length / 2)) + clusterVar cov (c.drop (c.length / 2)) ≠ 0) :
    ((c.take (c.length / 2)).map (share cov root)).sum * clusterVar cov (c.take (c.length / 2)) =
    ((c.drop (c.length / 2)).map (share cov root)).sum * clusterVar cov (c.drop (c.length / 2)) := by
  obtain ⟨k, hk⟩ := share_node cov h hn
  have hcn := hn.sublist h.sublist
  have e1 : (c.take (c.length / 2)).map (share cov root) =
      (c.take (c.length / 2)).map (fun t => (k * alphaOf cov c) * share cov (c.take (c.length / 2)) t) :=
    List.map_congr_left (fun t ht => by
      rw [hk t (List.take_subset _ _ ht), share_take cov hl ht]; ring)
  have e2 : (c.drop (c.length / 2)).map (share cov root) =
      (c.drop (c.length / 2)).map (fun t => (k * (1 - alphaOf cov c)) * share cov (c.drop (c.length / 2)) t) :=
    List.map_congr_left (fun t ht => by
      rw [hk t (List.drop_subset _ _ ht), share_drop cov hl hcn ht]; ring)
  rw [e1, e2, List.sum_map_mul_left, List.sum_map_mul_left]
  rw [sum_share cov _ (c.take (c.length / 2)) rfl (hcn.sublist (List.take_sublist _ _)) (by
    intro h0; have := congrArg List.length h0; simp only [List.length_take, List.length_nil] at this; omega)]
  rw [sum_share cov _ (c.drop (c.length / 2)) rfl (hcn.sublist (List.drop_sublist _ _)) (by
    intro h0; have := congrArg List.length h0; simp only [List.length_drop, List.length_nil] at this; omega)]
  unfold alphaOf
  field_simp
  ring

/-- Variance of the inverse-variance portfolio of a cluster, written as a plain double sum. -/
def ivpVariance (cov : κ → κ → K) (c : List κ) : K :=
  (c.map (fun s => (c.map (fun t => 1 / cov s s * cov s t * (1 / cov t t))).sum)).sum /
    (c.map (fun t => 1 / cov t t)).sum ^ 2

theorem sum_map_div (l : List κ) (f : κ → K) (a : K) :
    (l.map (fun t => f t / a)).sum = (l.map f).sum / a := by
  simp only [div_eq_mul_inv]
  rw [List.sum_map_mul_right]

theorem clusterVar_eq (cov : κ → κ → K) (c : List κ) : clusterVar cov c = ivpVariance cov c := by
  unfold clusterVar ivpVariance
  dsimp only
  set S := (c.map (fun t => 1 / cov t t)).sum with hS
  have e : c.zip ((c.map (fun t => 1 / cov t t)).map (fun x => x / S)) =
      c.map (fun t => (t, 1 / cov t t / S)) := by
    rw [List.map_map]
    have : ∀ (g : κ → K) (l : List κ), l.zip (l.map g) = l.map (fun t => (t, g t)) := by
      intro g l
      induction l with
      | nil => rfl
      | cons a l ih => simp [ih]
    exact this _ c
  rw [e, List.map_map, ← sum_map_div]
  congr 1
  apply List.map_congr_left
  intro s _
  simp only [Function.comp, List.map_map]
  have : (List.map ((fun q : κ × K => cov s q.1 * q.2) ∘ fun t => (t, 1 / cov t t / S)) c) =
      c.map (fun t => (cov s t * (1 / cov t t)) / S) := by
    apply List.map_congr_left
    intro t _
    simp only [Function.comp]; ring
  rw [this, sum_map_div]
  have e3 : (c.map (fun t => 1 / cov s s * cov s t * (1 / cov t t))) =
      c.map (fun t => 1 / cov s s * (cov s t * (1 / cov t t))) := by
    apply List.map_congr_left; intro t _; ring
  rw [e3, List.sum_map_mul_left]
  rw [div_mul_div_comm, pow_two]

theorem ivpVariance_smul (cov : κ → κ → K) (c : List κ) {a : K} (ha : a ≠ 0) :
    ivpVariance (fun s t => a * cov s t) c = a * ivpVariance cov c := by
  unfold ivpVariance
  have e1 : ∀ t, 1 / (a * cov t t) = a⁻¹ * (1 / cov t t) := by
    intro t; rw [one_div, one_div, mul_inv]
  have e2 : (c.map (fun t => 1 / (a * cov t t))).sum = a⁻¹ * (c.map (fun t => 1 / cov t t)).sum := by
    rw [← List.sum_map_mul_left]; simp only [e1]
  have e3 : (c.map (fun s => (c.map (fun t => 1 / (a * cov s s) * (a * cov s t) * (1 / (a * cov t t)))).sum)).sum =
      a⁻¹ * (c.map (fun s => (c.map (fun t => 1 / cov s s * cov s t * (1 / cov t t))).sum)).sum := by
    rw [← List.sum_map_mul_left]
    congr 1
    apply List.map_congr_left
    intro s _
    rw [← List.sum_map_mul_left]
    congr 1
    apply List.map_congr_left
    intro t _
    rw [e1, e1]
    field_simp
  rw [e2, e3]
  by_cases h0 : (c.map (fun t => 1 / cov t t)).sum = 0
  · rw [h0]; simp
  · field_simp

theorem alphaOf_smul (cov : κ → κ → K) (l : List κ) {a : K} (ha : a ≠ 0) :
    alphaOf (fun s t => a * cov s t) l = alphaOf cov l := by
  unfold alphaOf
  simp only [clusterVar_eq, ivpVariance_smul cov _ ha]
  rw [← mul_add, mul_div_mul_left _ _ ha]

theorem share_smul (cov : κ → κ → K) {a : K} (ha : a ≠ 0) : ∀ (n : ℕ) (l : List κ), l.length = n →
    ∀ t, share (fun s t => a * cov s t) l t = share cov l t := by
  intro n
  induction n using Nat.strong_induction_on with
  | _ n ih =>
    intro l hl t
    rw [share, share.eq_def cov l t]
    split
    · rw [alphaOf_smul cov l ha, ih _ (by simp only [List.length_take]; omega) _ rfl,
        ih _ (by simp only [List.length_drop]; omega) _ rfl]
    · rfl

/-- Positive definiteness of a labelled covariance on the given tickers. -/
def PosDefOn (cov : κ → κ → K) (ts : List κ) : Prop :=
  ∀ x : κ → K, (∃ t ∈ ts, x t ≠ 0) →
    0 < (ts.map (fun s => (ts.map (fun t => x s * cov s t * x t)).sum)).sum

theorem sum_indicator (ts c : List κ) (hn : ts.Nodup) (hc : c.Nodup) (hs : c ⊆ ts) (f : κ → K) :
    (ts.map (fun t => if t ∈ c then f t else 0)).sum = (c.map f).sum := by
  have hp : (ts.filter (· ∈ c)).Perm c := by
    rw [List.perm_ext_iff_of_nodup (hn.filter _) hc]
    intro t; simp only [List.mem_filter, decide_eq_true_eq]
    exact ⟨fun h => h.2, fun h => ⟨hs h, h⟩⟩
  rw [← (hp.map f).sum_eq]
  clear hp hn hc hs
  induction ts with
  | nil => rfl
  | cons t ts ih =>
    simp only [List.map_cons, List.sum_cons, ih, List.filter_cons]
    split <;> simp_all

theorem PosDefOn.sub {cov : κ → κ → K} {ts c : List κ} (h : PosDefOn cov ts) (hn : ts.Nodup)
    (hc : c.Nodup) (hs : c ⊆ ts) : PosDefOn cov c := by
  intro x hx
  have h' := h (fun t => if t ∈ c then x t else 0) (by
    obtain ⟨t, ht, hne⟩ := hx
    exact ⟨t, hs ht, by simpa [ht] using hne⟩)
  have e : (ts.map (fun s => (ts.map (fun t => (if s ∈ c then x s else 0) * cov s t *
      (if t ∈ c then x t else 0))).sum)).sum =
      (c.map (fun s => (c.map (fun t => x s * cov s t * x t)).sum)).sum := by
    rw [← sum_indicator ts c hn hc hs]
    congr 1
    apply List.map_congr_left
    intro s _
    by_cases hsc : s ∈ c
    · simp only [hsc, if_true]
      rw [← sum_indicator ts c hn hc hs]
      congr 1
      apply List.map_congr_left
      intro t _
      split <;> simp
    · simp only [hsc, if_false]
      simp
  rwa [e] at h'

theorem PosDefOn.diag {cov : κ → κ → K} {ts : List κ} (h : PosDefOn cov ts) (hn : ts.Nodup) {t : κ}
    (ht : t ∈ ts) : 0 < cov t t := by
  have := h.sub hn (List.nodup_singleton t) (by simpa using ht) (fun _ => 1) ⟨t, by simp⟩
  simpa using this

theorem PosDefOn.clusterVar_pos {cov : κ → κ → K} {ts c : List κ} (h : PosDefOn cov ts)
    (hn : ts.Nodup) (hc : c.Sublist ts) (hne : c ≠ []) : 0 < clusterVar cov c := by
  rw [clusterVar_eq]
  unfold ivpVariance
  have hcn := hn.sublist hc
  obtain ⟨t, ht⟩ := List.exists_mem_of_ne_nil c hne
  have hd : ∀ s ∈ c, 0 < 1 / cov s s := fun s hs => one_div_pos.2 (h.diag hn (hc.subset hs))
  apply div_pos
  · have := h.sub hn hcn hc.subset (fun s => 1 / cov s s) ⟨t, ht, (hd t ht).ne'⟩
    exact this
  · apply pow_pos
    apply List.sum_pos
    · intro x hx
      obtain ⟨s, hs, rfl⟩ := List.mem_map.1 hx
      exact hd s hs
    · simpa using hne

end Raw
end Verif.Hrp
