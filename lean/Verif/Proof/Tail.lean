import Verif.Spec.Tail
import Verif.Proof.Quad
import Mathlib.Tactic.Linarith
import Mathlib.Tactic.FieldSimp
import Mathlib.Tactic.Ring
import Mathlib.Order.ConditionallyCompleteLattice.Basic

/-! The representation of tail means by Rockafellar and Uryasev, and drawdowns as a recursion. -/

namespace Verif.Convex
open Finset

variable {T : ℕ} {q : ℝ} {L : Fin T → ℝ}

/-- Every representation bounds every average. -/
theorem shares_le (hq : 0 < q) {y : ℝ} (hy : y ∈ shares q L) (α : ℝ) {u : Fin T → ℝ} (h0 : ∀ t, 0 ≤ u t)
    (hu : ∀ t, L t - α ≤ u t) : y ≤ α + 1 / q * ∑ t, u t := by
  obtain ⟨c, hc, hs, rfl⟩ := hy
  have h1 : ∑ t, c t * L t ≤ α * q + ∑ t, u t := by
    rw [← hs, mul_sum, ← sum_add_distrib]
    refine sum_le_sum fun t _ => ?_
    have h2 : c t * (L t - α) ≤ c t * u t := mul_le_mul_of_nonneg_left (hu t) (hc t).1
    have h3 : c t * u t ≤ 1 * u t := mul_le_mul_of_nonneg_right (hc t).2 (h0 t)
    linarith
  rw [div_le_iff₀ hq]
  have e : (α + 1 / q * ∑ t, u t) * q = α * q + ∑ t, u t := by
    field_simp
  rw [e]
  exact h1

/-- A quantile. -/
theorem exists_quantile (hq : 0 < q) (hT : q ≤ T) :
    ∃ α, ((univ.filter fun t => α < L t).card : ℝ) ≤ q ∧ q ≤ ((univ.filter fun t => α ≤ L t).card : ℝ) := by
  have hT0 : 0 < T := by
    rcases Nat.eq_zero_or_pos T with rfl | h
    · simp at hT; linarith
    · exact h
  have hne : (univ : Finset (Fin T)).Nonempty := ⟨⟨0, hT0⟩, mem_univ _⟩
  let A := univ.filter fun t : Fin T => q ≤ ((univ.filter fun t' => L t ≤ L t').card : ℝ)
  obtain ⟨t₀, -, h₀⟩ := exists_min_image univ L hne
  have hA : A.Nonempty := by
    refine ⟨t₀, mem_filter.2 ⟨mem_univ _, ?_⟩⟩
    rw [filter_true_of_mem fun t _ => h₀ t (mem_univ _)]
    simpa using hT
  obtain ⟨t₁, h₁, hmax⟩ := exists_max_image A L hA
  refine ⟨L t₁, ?_, (mem_filter.1 h₁).2⟩
  by_contra hlt
  rw [not_le] at hlt
  have hB : (univ.filter fun t => L t₁ < L t).Nonempty := by
    rw [← card_pos]
    have : (0 : ℝ) < ((univ.filter fun t => L t₁ < L t).card : ℝ) := hq.trans hlt
    exact_mod_cast this
  obtain ⟨t₂, h₂, hmin⟩ := exists_min_image _ L hB
  have h2A : t₂ ∈ A := by
    refine mem_filter.2 ⟨mem_univ _, hlt.le.trans ?_⟩
    exact_mod_cast card_le_card fun t ht => mem_filter.2 ⟨mem_univ _, hmin t ht⟩
  have := hmax t₂ h2A
  have := (mem_filter.1 h₂).2
  linarith

/-- Some representation is an average. -/
theorem exists_share (hq : 0 < q) (hT : q ≤ T) :
    ∃ α, α + 1 / q * ∑ t, max 0 (L t - α) ∈ shares q L := by
  obtain ⟨α, h1, h2⟩ := exists_quantile (L := L) hq hT
  refine ⟨α, ?_⟩
  set a : ℝ := ((univ.filter fun t => α < L t).card : ℝ) with ha
  set b : ℝ := ((univ.filter fun t => L t = α).card : ℝ) with hb
  have hab : ((univ.filter fun t => α ≤ L t).card : ℝ) = a + b := by
    rw [ha, hb, ← Nat.cast_add, ← card_union_of_disjoint]
    · congr 2
      ext t
      simp [le_iff_lt_or_eq, eq_comm]
    · rw [disjoint_filter]
      intro t _ h h'
      linarith
  rw [hab] at h2
  have hb0 : 0 ≤ b := Nat.cast_nonneg _
  -- the fraction of the days at the quantile
  obtain ⟨d, hd0, hd1, hd⟩ : ∃ d : ℝ, 0 ≤ d ∧ d ≤ 1 ∧ a + d * b = q := by
    rcases hb0.eq_or_lt with h | h
    · exact ⟨0, le_rfl, zero_le_one, by rw [← h] at h2; linarith⟩
    · refine ⟨(q - a) / b, div_nonneg (by linarith) h.le, (div_le_one h).2 (by linarith), ?_⟩
      field_simp
      ring
  refine ⟨fun t => if α < L t then 1 else if L t = α then d else 0, fun t => ?_, ?_, ?_⟩
  · dsimp only
    split_ifs <;> constructor <;> linarith
  · have e : ∀ t, (if α < L t then (1 : ℝ) else if L t = α then d else 0) =
        (if α < L t then 1 else 0) + d * (if L t = α then 1 else 0) := by
      intro t
      by_cases h : α < L t
      · simp [h, h.ne']
      · simp [h]
    rw [sum_congr rfl fun t _ => e t, sum_add_distrib, ← mul_sum, sum_boole, sum_boole]
    exact hd
  · have hsum : ∑ t, (if α < L t then (1 : ℝ) else if L t = α then d else 0) = q := by
      have e : ∀ t, (if α < L t then (1 : ℝ) else if L t = α then d else 0) =
          (if α < L t then 1 else 0) + d * (if L t = α then 1 else 0) := by
        intro t
        by_cases h : α < L t
        · simp [h, h.ne']
        · simp [h]
      rw [sum_congr rfl fun t _ => e t, sum_add_distrib, ← mul_sum, sum_boole, sum_boole]
      exact hd
    have e : ∀ t, (if α < L t then (1 : ℝ) else if L t = α then d else 0) * L t =
        α * (if α < L t then (1 : ℝ) else if L t = α then d else 0) + max 0 (L t - α) := by
      intro t
      by_cases h : α < L t
      · simp only [h, if_true]
        rw [max_eq_right (by linarith)]
        ring
      · rw [max_eq_left (by linarith [not_lt.1 h])]
        by_cases h' : L t = α
        · simp only [h', lt_irrefl, if_false, if_true]; ring
        · simp [h, h']
    rw [sum_congr rfl fun t _ => e t, sum_add_distrib, ← mul_sum, hsum]
    field_simp

theorem tailMean_isGreatest (hq : 0 < q) (hT : q ≤ T) : IsGreatest (shares q L) (tailMean q L) := by
  obtain ⟨α, hα⟩ := exists_share (L := L) hq hT
  have hg : IsGreatest (shares q L) (α + 1 / q * ∑ t, max 0 (L t - α)) :=
    ⟨hα, fun y hy => shares_le hq hy α (fun t => le_max_left _ _) (fun t => le_max_right _ _)⟩
  have : tailMean q L = α + 1 / q * ∑ t, max 0 (L t - α) := hg.csSup_eq
  rw [this]
  exact hg

/-- The tail mean is at most every representation. -/
theorem tailMean_le (hq : 0 < q) (hT : q ≤ T) (α : ℝ) {u : Fin T → ℝ} (h0 : ∀ t, 0 ≤ u t)
    (hu : ∀ t, L t - α ≤ u t) : tailMean q L ≤ α + 1 / q * ∑ t, u t :=
  shares_le hq (tailMean_isGreatest hq hT).1 α h0 hu

/-- The tail mean is a representation. -/
theorem tailMean_eq (hq : 0 < q) (hT : q ≤ T) : ∃ α, tailMean q L = α + 1 / q * ∑ t, max 0 (L t - α) := by
  obtain ⟨α, hα⟩ := exists_share (L := L) hq hT
  have hg : IsGreatest (shares q L) (α + 1 / q * ∑ t, max 0 (L t - α)) :=
    ⟨hα, fun y hy => shares_le hq hy α (fun t => le_max_left _ _) (fun t => le_max_right _ _)⟩
  exact ⟨α, hg.csSup_eq⟩

/-- Losses that are higher by at most `ε` have a tail mean higher by at most `ε`. -/
theorem tailMean_mono (hq : 0 < q) (hT : q ≤ T) {L' : Fin T → ℝ} {ε : ℝ} (h : ∀ t, L t ≤ L' t + ε) :
    tailMean q L ≤ tailMean q L' + ε := by
  obtain ⟨α, e⟩ := tailMean_eq (L := L') hq hT
  have := tailMean_le (L := L) hq hT (α + ε) (u := fun t => max 0 (L' t - α)) (fun t => le_max_left _ _)
    (fun t => (by linarith [h t] : L t - (α + ε) ≤ L' t - α).trans (le_max_right _ _))
  linarith

/-- If `q` is a whole number, the tail mean is the mean of the `q` largest losses. -/
theorem tailMean_whole {m : ℕ} (hm : 0 < m) (hT : m ≤ T) :
    IsGreatest {y | ∃ A : Finset (Fin T), A.card = m ∧ y = (∑ t ∈ A, L t) / m} (tailMean m L) := by
  have hm' : (0 : ℝ) < m := by exact_mod_cast hm
  have hT' : (m : ℝ) ≤ T := by exact_mod_cast hT
  have hg := tailMean_isGreatest (L := L) hm' hT'
  have up : ∀ A : Finset (Fin T), A.card = m → (∑ t ∈ A, L t) / m ∈ shares (m : ℝ) L := by
    intro A hA
    refine ⟨fun t => if t ∈ A then 1 else 0, fun t => ?_, ?_, ?_⟩
    · dsimp only
      split_ifs <;> norm_num
    · rw [sum_boole, filter_mem_eq_inter, univ_inter, hA]
    · congr 1
      rw [sum_congr rfl fun t _ => ite_mul (t ∈ A) (1 : ℝ) 0 (L t)]
      simp [sum_ite_mem]
  refine ⟨?_, ?_⟩
  · obtain ⟨α, h1, h2⟩ := exists_quantile (L := L) hm' hT'
    obtain ⟨A, h3, h4, h5⟩ := exists_subsuperset_card_eq (n := m)
      (s := univ.filter fun t => α < L t) (t := univ.filter fun t => α ≤ L t)
      (fun t ht => mem_filter.2 ⟨mem_univ _, (mem_filter.1 ht).2.le⟩) (by exact_mod_cast h1) (by exact_mod_cast h2)
    refine ⟨A, h5, le_antisymm ?_ (hg.2 (up A h5))⟩
    refine (tailMean_le hm' hT' α (u := fun t => max 0 (L t - α)) (fun t => le_max_left _ _)
      (fun t => le_max_right _ _)).trans_eq ?_
    have e : ∑ t, max 0 (L t - α) = ∑ t ∈ A, (L t - α) := by
      rw [← sum_subset (subset_univ A)]
      · exact sum_congr rfl fun t ht => max_eq_right (by linarith [(mem_filter.1 (h4 ht)).2])
      · intro t _ ht
        refine max_eq_left ?_
        by_contra hlt
        exact ht (h3 (mem_filter.2 ⟨mem_univ _, by linarith⟩))
    rw [e, sum_sub_distrib, sum_const, h5, nsmul_eq_mul]
    field_simp
    ring
  · rintro y ⟨A, hA, rfl⟩
    exact hg.2 (up A hA)

/-! ### Drawdowns -/

variable {r : Fin T → ℝ}

theorem cum_zero : cum r 0 = 0 := by simp [cum]

theorem cum_succ (t : Fin T) : cum r (t + 1) = cum r t + r t := by
  unfold cum
  have : (univ.filter fun s : Fin T => s.val < t.val + 1) = insert t (univ.filter fun s : Fin T => s.val < t.val) := by
    ext s
    simp only [mem_filter, mem_univ, true_and, mem_insert, Nat.lt_succ_iff_lt_or_eq, Fin.ext_iff]
    tauto
  rw [this, sum_insert (by simp), add_comm]

theorem drawdown_zero : drawdown r 0 = 0 := by simp [drawdown]

theorem drawdown_nonneg (k : ℕ) : 0 ≤ drawdown r k := by
  have := le_sup' (f := fun j => cum r j - cum r k) (mem_range.2 (Nat.lt_succ_self k))
  simpa [drawdown] using this

theorem drawdown_succ (t : Fin T) : drawdown r (t + 1) = max 0 (drawdown r t - r t) := by
  apply le_antisymm
  · refine sup'_le _ _ fun j hj => ?_
    rcases Nat.lt_succ_iff_lt_or_eq.1 (mem_range.1 hj) with h | h
    · refine le_max_of_le_right ?_
      have := le_sup' (f := fun j => cum r j - cum r t) (mem_range.2 h)
      rw [cum_succ]
      have h2 : cum r j - cum r t ≤ drawdown r t := this
      linarith
    · rw [h, sub_self]; exact le_max_left _ _
  · refine max_le (drawdown_nonneg _) ?_
    rw [sub_le_iff_le_add]
    refine sup'_le _ _ fun j hj => ?_
    have h2 : cum r j - cum r (t + 1) ≤ drawdown r (t + 1) :=
      le_sup' (f := fun j => cum r j - cum r (t + 1)) (mem_range.2 ((mem_range.1 hj).trans (Nat.lt_succ_self _)))
    rw [cum_succ] at h2
    linarith

/-- Every solution of the inequalities lies above the drawdown path. -/
theorem drawdown_le {u : ℕ → ℝ} (h0 : u 0 = 0) (h : ∀ t : Fin T, u t - r t ≤ u (t + 1) ∧ 0 ≤ u (t + 1)) (k : ℕ)
    (hk : k ≤ T) : drawdown r k ≤ u k := by
  induction k with
  | zero => rw [drawdown_zero, h0]
  | succ k ih =>
    have := drawdown_succ (r := r) ⟨k, hk⟩
    rw [this]
    have h1 := h ⟨k, hk⟩
    have h2 := ih (Nat.le_of_lt hk)
    exact max_le h1.2 (by dsimp only at h1 ⊢; linarith)

theorem cum_sub_le (r r' : Fin T → ℝ) {j k : ℕ} (hjk : j ≤ k) :
    |(cum r j - cum r k) - (cum r' j - cum r' k)| ≤ ∑ t, |r t - r' t| := by
  have e : ∀ r : Fin T → ℝ, cum r k - cum r j = ∑ t with j ≤ t.val ∧ t.val < k, r t := by
    intro r
    have : (univ.filter fun t : Fin T => t.val < k) =
        (univ.filter fun t : Fin T => t.val < j) ∪ univ.filter fun t : Fin T => j ≤ t.val ∧ t.val < k := by
      ext t
      simp only [mem_filter, mem_univ, true_and, mem_union]
      omega
    unfold cum
    rw [this, sum_union, add_sub_cancel_left]
    rw [disjoint_filter]
    intro t _ h
    omega
  rw [abs_sub_comm, show cum r' j - cum r' k - (cum r j - cum r k) = cum r k - cum r j - (cum r' k - cum r' j) by ring,
    e, e, ← sum_sub_distrib]
  refine (abs_sum_le_sum_abs _ _).trans ?_
  exact sum_le_sum_of_subset_of_nonneg (subset_univ _) fun _ _ _ => abs_nonneg _

/-- Drawdowns of two histories. -/
theorem drawdown_mono (r r' : Fin T → ℝ) (k : ℕ) : drawdown r k ≤ drawdown r' k + ∑ t, |r t - r' t| := by
  refine sup'_le _ _ fun j hj => ?_
  have h1 : cum r' j - cum r' k ≤ drawdown r' k := le_sup' (f := fun j => cum r' j - cum r' k) hj
  have h2 := (abs_le.1 (cum_sub_le r r' (Nat.lt_succ_iff.1 (mem_range.1 hj)))).2
  linarith

end Verif.Convex
