import Verif.Model.Discrete
import Verif.Proof.Py
import Mathlib.Tactic.Ring
import Mathlib.Tactic.FieldSimp
import Mathlib.Tactic.Positivity
import Mathlib.Algebra.Order.Archimedean.Basic
import Mathlib.Algebra.BigOperators.Group.List.Basic
import Mathlib.Algebra.Order.BigOperators.Group.List

/-! Helper lemmas for the discrete allocation properties. -/

set_option linter.unusedSectionVars false

namespace Verif.Discrete
open Verif.Py

variable {κ : Type} [DecidableEq κ]
variable {K : Type} [Field K] [LinearOrder K] [IsStrictOrderedRing K] [FloorRing K]

/-- Price of a ticker (0 when absent; only used for tickers that are present). -/
def pr (prices : List (κ × K)) (t : κ) : K := (Dict.get? prices t).getD 0

/-- Money value of share counts. -/
def dot (ps : List K) (ns : List ℤ) : K :=
  (List.zipWith (fun (p : K) (n : ℤ) => p * (n : K)) ps ns).sum

omit [LinearOrder K] [IsStrictOrderedRing K] [FloorRing K] in
@[simp] theorem dot_cons (p : K) (ps : List K) (n : ℤ) (ns : List ℤ) :
    dot (p :: ps) (n :: ns) = p * n + dot ps ns := by simp [dot]

omit [LinearOrder K] [IsStrictOrderedRing K] [FloorRing K] in
@[simp] theorem dot_nil_left (ns : List ℤ) : dot ([] : List K) ns = 0 := by simp [dot]

theorem firstRound_ok (prices : List (κ × K)) (total : K) (ws : List (κ × K)) (funds : K)
    {f : K} {ns : List ℤ} {ps : List K}
    (h : firstRound prices total ws funds = .ok (f, ns, ps)) :
    ps = ws.map (fun x => pr prices x.1) ∧
    ns = ws.map (fun x => pyInt (x.2 * total / pr prices x.1)) ∧
    f + dot ps ns = funds ∧ (0 ≤ funds → 0 ≤ f) := by
  induction ws generalizing funds f ns ps with
  | nil =>
    simp [firstRound] at h
    obtain ⟨rfl, rfl, rfl⟩ := h
    simp
  | cons x ws ih =>
    obtain ⟨t, w⟩ := x
    unfold firstRound at h
    cases hp : Dict.get? prices t with
    | none => simp [lookup, hp, bind, Except.bind] at h
    | some price =>
      simp only [lookup, hp, bind, Except.bind] at h
      by_cases h0 : price = 0
      · simp [h0] at h
      · rw [if_neg h0] at h
        by_cases hc : ((pyInt (w * total / price) : ℤ) : K) * price ≤ funds
        · rw [if_neg (not_not.2 hc)] at h
          cases hr : firstRound prices total ws
              (funds - ((pyInt (w * total / price) : ℤ) : K) * price) with
          | error e => simp [hr] at h
          | ok r =>
            obtain ⟨f', ns', ps'⟩ := r
            simp only [hr, Except.ok.injEq, Prod.mk.injEq] at h
            obtain ⟨rfl, rfl, rfl⟩ := h
            obtain ⟨h1, h2, h3, h4⟩ := ih _ hr
            have hpr : pr prices t = price := by simp [pr, hp]
            refine ⟨by simp [h1, hpr], by simp [h2, hpr], ?_, fun _ => h4 (by linarith)⟩
            rw [dot_cons]; linarith
        · rw [if_pos hc] at h; cases h

theorem firstRound_keys (prices : List (κ × K)) (total : K) (ws : List (κ × K)) (funds : K)
    {r : K × List ℤ × List K} (h : firstRound prices total ws funds = .ok r) :
    ∀ x ∈ ws, x.1 ∈ prices.map Prod.fst := by
  induction ws generalizing funds r with
  | nil => simp
  | cons x ws ih =>
    obtain ⟨t, w⟩ := x
    unfold firstRound at h
    cases hp : Dict.get? prices t with
    | none => simp [lookup, hp, bind, Except.bind] at h
    | some price =>
      simp only [lookup, hp, bind, Except.bind] at h
      split at h
      · cases h
      · split at h
        · cases h
        · split at h
          · cases h
          · rename_i v hr
            intro y hy
            rcases List.mem_cons.1 hy with rfl | hy
            · exact List.mem_map.2 ⟨_, Dict.mem_of_get? _ hp, rfl⟩
            · exact ih _ hr y hy

theorem firstRound_succeeds (prices : List (κ × K)) (total : K) (ws : List (κ × K)) (funds : K)
    (hpos : ∀ x ∈ ws, ∃ p, 0 < p ∧ Dict.get? prices x.1 = some p)
    (hw : ∀ x ∈ ws, 0 ≤ x.2) (ht : 0 ≤ total)
    (hs : (ws.map Prod.snd).sum * total ≤ funds) :
    ∃ r, firstRound prices total ws funds = .ok r := by
  induction ws generalizing funds with
  | nil => exact ⟨_, rfl⟩
  | cons x ws ih =>
    obtain ⟨t, w⟩ := x
    obtain ⟨price, hp0, hp⟩ := hpos (t, w) (by simp)
    have hw0 : 0 ≤ w := hw (t, w) (by simp)
    have hnn : 0 ≤ w * total / price := by positivity
    have hcost : ((pyInt (w * total / price) : ℤ) : K) * price ≤ w * total := by
      rw [pyInt_of_nonneg hnn]
      have := Int.floor_le (w * total / price)
      calc (⌊w * total / price⌋ : K) * price ≤ w * total / price * price := by gcongr
        _ = w * total := by field_simp
    have hsn : 0 ≤ (ws.map Prod.snd).sum := by
      apply List.sum_nonneg
      intro y hy
      obtain ⟨z, hz, rfl⟩ := List.mem_map.1 hy
      exact hw z (by simp [hz])
    simp only [List.map_cons, List.sum_cons, add_mul] at hs
    have hprod : 0 ≤ (ws.map Prod.snd).sum * total := by positivity
    obtain ⟨⟨f, ns, ps⟩, hr⟩ := ih (funds - ((pyInt (w * total / price) : ℤ) : K) * price)
      (fun x hx => hpos x (by simp [hx])) (fun x hx => hw x (by simp [hx])) (by linarith)
    unfold firstRound
    simp only at hp
    simp only [lookup, hp, bind, Except.bind]
    rw [if_neg hp0.ne', if_neg (not_not.2 (by linarith)), hr]
    exact ⟨_, rfl⟩

omit [LinearOrder K] [IsStrictOrderedRing K] [FloorRing K] in
theorem dot_bump (ps : List K) (ns : List ℤ) (i : ℕ) (h : ps.length = ns.length)
    (hi : i < ns.length) : dot ps (bump ns i) = dot ps ns + ps.getD i 0 := by
  induction ps generalizing ns i with
  | nil => cases ns <;> simp_all
  | cons p ps ih =>
    cases ns with
    | nil => simp at h
    | cons n ns =>
      cases i with
      | zero => simp [bump]; ring
      | succ i =>
        have := ih ns i (by simpa using h) (by simpa using hi)
        simp only [bump] at this
        simp only [bump, List.modify_succ_cons, dot_cons, this, List.getD_cons_succ]
        ring

theorem length_bump (ns : List ℤ) (i : ℕ) : (bump ns i).length = ns.length := by simp [bump]

theorem currentWeights_length (ps : List K) (ns : List ℤ) (h : ps.length = ns.length) :
    (currentWeights ps ns).length = ns.length := by
  unfold currentWeights; dsimp only; split <;> simp [h]

theorem deficits_length (ideal : List K) (cur : List (Option K)) (h : ideal.length = cur.length) :
    (deficits ideal cur).length = cur.length := by simp [deficits, h]

theorem innerLoop_spec (bp : List K) (funds : K) (rem : ℕ) (D : List (Option K)) (idx : ℕ)
    (hi : idx < D.length) :
    (innerLoop bp funds rem D idx).1.length = D.length ∧
    (innerLoop bp funds rem D idx).2.1 < D.length ∧
    ((innerLoop bp funds rem D idx).2.2 = 0 ∨
      nanLt ((innerLoop bp funds rem D idx).1.getD (innerLoop bp funds rem D idx).2.1 none)
        (some 0) = true ∨
      bp.getD (innerLoop bp funds rem D idx).2.1 0 ≤ funds) := by
  induction rem generalizing D idx with
  | zero =>
    unfold innerLoop
    by_cases h : bp.getD idx 0 > funds
    · have hne : D.set idx (some 0) ≠ [] := by
        intro e; have := congrArg List.length e; simp at this; simp [this] at hi
      have := npArgmax_lt _ hne
      simp only [List.length_set] at this
      simp only [if_pos h, List.length_set, true_and, true_or, and_true]
      exact this
    · simp only [if_neg h]; exact ⟨trivial, hi, .inl trivial⟩
  | succ rem ih =>
    unfold innerLoop
    by_cases h : bp.getD idx 0 > funds
    · have hne : D.set idx (some 0) ≠ [] := by
        intro e; have := congrArg List.length e; simp at this; simp [this] at hi
      have hlt := npArgmax_lt _ hne
      simp only [if_pos h]
      by_cases hb : nanLt ((D.set idx (some 0)).getD (npArgmax (D.set idx (some 0))) none)
          (some 0) = true
      · rw [if_pos hb]
        simp only [List.length_set] at hlt
        simp only [List.length_set, true_and]
        exact ⟨hlt, .inr (.inl hb)⟩
      · rw [if_neg hb]
        have := ih _ _ hlt
        simpa only [List.length_set] using this
    · simp only [if_neg h]
      exact ⟨trivial, hi, .inr (.inr (not_lt.1 h))⟩

theorem pick_some (ideal bp : List K) (funds : K) (ns : List ℤ) (i : ℕ)
    (h1 : ideal.length = ns.length) (h2 : bp.length = ns.length) (h3 : ns ≠ [])
    (h : pick ideal bp funds ns = some i) : i < ns.length ∧ bp.getD i 0 ≤ funds := by
  have hc := currentWeights_length bp ns h2
  have hd : (deficits ideal (currentWeights bp ns)).length = ns.length := by
    rw [deficits_length _ _ (by rw [hc, h1]), hc]
  have hne : deficits ideal (currentWeights bp ns) ≠ [] := by
    intro e; rw [e] at hd; exact h3 (List.length_eq_zero_iff.1 hd.symm)
  have hs := innerLoop_spec bp funds 10 _ _ (npArgmax_lt _ hne)
  unfold pick at h
  dsimp only at h
  split at h
  · cases h
  · rename_i hcond
    simp only [Bool.or_eq_true, beq_iff_eq, not_or] at hcond
    cases h
    refine ⟨by rw [← hd]; exact hs.2.1, ?_⟩
    rcases hs.2.2 with h0 | h0 | h0
    · exact absurd h0 hcond.2
    · exfalso
      apply hcond.1
      revert h0
      generalize List.getD _ _ _ = z
      cases z <;> simp [nanLt, nanLe]
      exact le_of_lt
    · exact h0

/-- Invariant of the second round: books stay balanced, counts only grow, funds stay ≥ 0, and at
the end either the funds are used up or the picking rule found nothing. -/
theorem secondRound_inv (ideal bp : List K) (fuel : ℕ) (funds : K) (ns : List ℤ)
    (h1 : ideal.length = ns.length) (h2 : bp.length = ns.length) (h3 : ns ≠ [])
    (hf : 0 ≤ funds) {left : K} {ms : List ℤ}
    (h : secondRound ideal bp fuel funds ns = some (left, ms)) :
    ms.length = ns.length ∧ left + dot bp ms = funds + dot bp ns ∧ 0 ≤ left ∧
    (∀ i, ns.getD i 0 ≤ ms.getD i 0) ∧ (left = 0 ∨ pick ideal bp left ms = none) := by
  induction fuel generalizing funds ns with
  | zero =>
    unfold secondRound at h
    split at h
    · split at h
      · rename_i hp
        cases h; exact ⟨rfl, rfl, hf, fun _ => le_rfl, .inr hp⟩
      · cases h
    · rename_i hp
      cases h; exact ⟨rfl, rfl, hf, fun _ => le_rfl, .inl (le_antisymm (not_lt.1 hp) hf)⟩
  | succ fuel ih =>
    unfold secondRound at h
    split at h
    · split at h
      · rename_i hp
        cases h; exact ⟨rfl, rfl, hf, fun _ => le_rfl, .inr hp⟩
      · rename_i i hp
        obtain ⟨hi, hle⟩ := pick_some ideal bp funds ns i h1 h2 h3 hp
        have hne : bump ns i ≠ [] := by
          intro e; apply h3; apply List.length_eq_zero_iff.1; rw [← length_bump ns i, e]; rfl
        obtain ⟨a, b, c, d, e⟩ := ih (funds - bp.getD i 0) (bump ns i) (by rw [length_bump, h1])
          (by rw [length_bump, h2]) hne (by linarith) h
        refine ⟨by rw [a, length_bump], ?_, c, ?_, e⟩
        · rw [b, dot_bump bp ns i h2 hi]; ring
        · intro j
          refine le_trans ?_ (d j)
          simp only [bump, List.getD_eq_getElem?_getD, List.getElem?_modify]
          cases ns[j]? <;> simp
          split <;> omega
    · rename_i hp
      cases h; exact ⟨rfl, rfl, hf, fun _ => le_rfl, .inl (le_antisymm (not_lt.1 hp) hf)⟩

theorem secondRound_terminates (ideal bp : List K) (m : K)
    (hbp : ∀ p ∈ bp, m ≤ p) (fuel : ℕ) (funds : K) (ns : List ℤ)
    (h1 : ideal.length = ns.length) (h2 : bp.length = ns.length) (h3 : ns ≠ [])
    (hf : funds ≤ fuel * m) : ∃ r, secondRound ideal bp fuel funds ns = some r := by
  induction fuel generalizing funds ns with
  | zero =>
    unfold secondRound
    have : ¬ funds > 0 := by simpa using hf
    rw [if_neg this]; exact ⟨_, rfl⟩
  | succ fuel ih =>
    unfold secondRound
    split
    · split
      · exact ⟨_, rfl⟩
      · rename_i i hp
        obtain ⟨hi, hle⟩ := pick_some ideal bp funds ns i h1 h2 h3 hp
        apply ih
        · rw [length_bump, h1]
        · rw [length_bump, h2]
        · intro e; apply h3; apply List.length_eq_zero_iff.1; rw [← length_bump ns i, e]; rfl
        · have : m ≤ bp.getD i 0 := by
            apply hbp
            rw [List.getD_eq_getElem?_getD, List.getElem?_eq_getElem (by omega), Option.getD_some]
            exact List.getElem_mem _
          push_cast at hf
          linarith
    · exact ⟨_, rfl⟩

theorem secondRound_mono (ideal bp : List K) (fuel fuel' : ℕ) (hle : fuel ≤ fuel') (funds : K)
    (ns : List ℤ) {r : K × List ℤ} (h : secondRound ideal bp fuel funds ns = some r) :
    secondRound ideal bp fuel' funds ns = some r := by
  induction fuel generalizing funds ns fuel' with
  | zero =>
    unfold secondRound at h ⊢
    split at h
    · rename_i hp; rw [if_pos hp]
      split at h
      · rename_i hk; exact h
      · cases h
    · rename_i hp; rw [if_neg hp]; exact h
  | succ fuel ih =>
    obtain ⟨k, rfl⟩ : ∃ k, fuel' = k + 1 := ⟨fuel' - 1, by omega⟩
    unfold secondRound at h ⊢
    split at h
    · rename_i hp; rw [if_pos hp]
      split at h
      · rename_i hk; exact h
      · rename_i i hk; exact ih k (by omega) _ _ h
    · rename_i hp; rw [if_neg hp]; exact h

/-! ### The stop condition -/

/-- Every entry is a number `≤ 0`. -/
def AllLe0 (D : List (Option K)) : Prop := ∀ y ∈ D, ∃ v, y = some v ∧ v ≤ 0

theorem allLe0_of_argmax (D : List (Option K)) (hne : D ≠ [])
    (h : nanLe (D.getD (npArgmax D) none) (some 0) = true) : AllLe0 D := by
  obtain ⟨m, hm, hmax⟩ := npArgmax_spec D hne
  rw [List.getD_eq_getElem?_getD, hm, Option.getD_some] at h
  intro y hy
  have := hmax y hy
  cases m with
  | none => simp [nanLe] at h
  | some m =>
    cases y with
    | none => simp [NpLe] at this
    | some y =>
      simp only [NpLe] at this
      simp only [nanLe, decide_eq_true_eq] at h
      exact ⟨y, rfl, this.trans h⟩

theorem allLe0_set (D : List (Option K)) (i : ℕ) (h : AllLe0 D) : AllLe0 (D.set i (some 0)) := by
  intro y hy
  rcases List.mem_or_eq_of_mem_set hy with hy | rfl
  · exact h y hy
  · exact ⟨0, rfl, le_rfl⟩

/-- Number of entries equal to zero. -/
def zeros (D : List (Option K)) : ℕ := D.countP (fun y => decide (y = some 0))

theorem zeros_set (D : List (Option K)) (i : ℕ) (hi : i < D.length)
    (h : D.getD i none ≠ some 0) : zeros (D.set i (some 0)) = zeros D + 1 := by
  unfold zeros
  induction D generalizing i with
  | nil => simp at hi
  | cons x D ih =>
    cases i with
    | zero =>
      have h : x ≠ some 0 := by simpa using h
      simp [h]
    | succ i =>
      have := ih i (by simpa using hi) (by simpa using h)
      simp only [List.set_cons_succ, List.countP_cons, this]
      omega

/-- Main invariant of the inner loop: entries of affordable assets are never touched, and either
everything left is `≤ 0` or each retry removed one more entry. -/
theorem innerLoop_stop (bp : List K) (funds : K) (rem : ℕ) (hrem : rem ≤ 10)
    (D0 D : List (Option K))
    (hne : D ≠ [])
    (hkeep : ∀ i, bp.getD i 0 ≤ funds → D.getD i none = D0.getD i none)
    (hcnt : AllLe0 D ∨ 10 - rem ≤ zeros D) (hlen : D.length ≤ 10)
    (h : let r := innerLoop bp funds rem D (npArgmax D)
      (nanLe (r.1.getD r.2.1 none) (some 0) || r.2.2 == 0) = true) :
    ∃ D', D'.length = D.length ∧ AllLe0 D' ∧
      ∀ i, bp.getD i 0 ≤ funds → D'.getD i none = D0.getD i none := by
  have hidx := npArgmax_lt D hne
  -- zeroing an unaffordable entry preserves everything
  have hkeep' : bp.getD (npArgmax D) 0 > funds → ∀ i, bp.getD i 0 ≤ funds →
      (D.set (npArgmax D) (some 0)).getD i none = D0.getD i none := by
    intro hgt i hi
    rw [← hkeep i hi]
    have : npArgmax D ≠ i := by rintro rfl; exact absurd hi (not_le.2 hgt)
    simp [List.getD_eq_getElem?_getD, this]
  have hcnt' : AllLe0 (D.set (npArgmax D) (some 0)) ∨
      10 - rem + 1 ≤ zeros (D.set (npArgmax D) (some 0)) := by
    rcases hcnt with hc | hc
    · exact .inl (allLe0_set _ _ hc)
    · by_cases h0 : D.getD (npArgmax D) none = some 0
      · left
        exact allLe0_set _ _ (allLe0_of_argmax D hne (by rw [h0]; simp [nanLe]))
      · right; rw [zeros_set _ _ hidx h0]; omega
  have hzl : ∀ E : List (Option K), zeros E ≤ E.length := fun E => List.countP_le_length
  induction rem generalizing D with
  | zero =>
    unfold innerLoop at h
    by_cases hgt : bp.getD (npArgmax D) 0 > funds
    · refine ⟨D.set (npArgmax D) (some 0), by simp, ?_, hkeep' hgt⟩
      rcases hcnt' with hc | hc
      · exact hc
      · have := hzl (D.set (npArgmax D) (some 0))
        simp only [List.length_set] at this; omega
    · refine ⟨D, rfl, ?_, hkeep⟩
      rcases hcnt with hc | hc
      · exact hc
      · have h1 : zeros D = D.length := le_antisymm (hzl D) (by omega)
        intro y hy
        have := List.countP_eq_length.1 h1 y hy
        exact ⟨0, by simpa using this, le_rfl⟩
  | succ rem ih =>
    unfold innerLoop at h
    by_cases hgt : bp.getD (npArgmax D) 0 > funds
    · simp only [if_pos hgt] at h
      have hne' : D.set (npArgmax D) (some 0) ≠ [] := by simpa using hne
      by_cases hb : nanLt ((D.set (npArgmax D) (some 0)).getD
          (npArgmax (D.set (npArgmax D) (some 0))) none) (some 0) = true
      · refine ⟨D.set (npArgmax D) (some 0), by simp, ?_, hkeep' hgt⟩
        apply allLe0_of_argmax _ hne'
        revert hb
        generalize List.getD _ _ _ = z
        cases z <;> simp [nanLt, nanLe]
        exact le_of_lt
      · simp only [if_neg hb] at h
        have hidx' := npArgmax_lt _ hne'
        have hc2 : AllLe0 (D.set (npArgmax D) (some 0)) ∨
            10 - rem ≤ zeros (D.set (npArgmax D) (some 0)) := by
          rcases hcnt' with hc | hc
          · exact .inl hc
          · right; omega
        obtain ⟨D', h1, h2, h3⟩ := ih (by omega) (D.set (npArgmax D) (some 0)) hne' (hkeep' hgt)
          hc2 (by simpa using hlen) h hidx'
          (by
            intro hgt2 i hi
            rw [← hkeep' hgt i hi]
            have : npArgmax (D.set (npArgmax D) (some 0)) ≠ i := by
              rintro rfl; exact absurd hi (not_le.2 hgt2)
            simp only [List.getD_eq_getElem?_getD]
            rw [List.getElem?_set_ne this])
          (by
            rcases hc2 with hc | hc
            · exact .inl (allLe0_set _ _ hc)
            · by_cases h0 : (D.set (npArgmax D) (some 0)).getD
                  (npArgmax (D.set (npArgmax D) (some 0))) none = some 0
              · left
                exact allLe0_set _ _ (allLe0_of_argmax _ hne' (by rw [h0]; simp [nanLe]))
              · right; rw [zeros_set _ _ hidx' h0]; omega)
        exact ⟨D', by simpa using h1, h2, h3⟩
    · simp only [if_neg hgt] at h
      refine ⟨D, rfl, ?_, hkeep⟩
      apply allLe0_of_argmax D hne
      simpa using h

/-- With at most ten assets, the second round stops only when every affordable asset is at or above
its desired fraction. -/
theorem pick_none (ideal bp : List K) (funds : K) (ns : List ℤ)
    (h1 : ideal.length = ns.length) (h2 : bp.length = ns.length) (h3 : ns ≠ [])
    (h10 : ns.length ≤ 10) (h : pick ideal bp funds ns = none) (i : ℕ) (hi : i < ns.length)
    (haff : bp.getD i 0 ≤ funds) :
    dot bp ns ≠ 0 ∧
      ideal.getD i 0 ≤ bp.getD i 0 * ((ns.getD i 0 : ℤ) : K) / dot bp ns := by
  have hc := currentWeights_length bp ns h2
  have hd : (deficits ideal (currentWeights bp ns)).length = ns.length := by
    rw [deficits_length _ _ (by rw [hc, h1]), hc]
  have hne : deficits ideal (currentWeights bp ns) ≠ [] := by
    intro e; rw [e] at hd; exact h3 (List.length_eq_zero_iff.1 hd.symm)
  have hcond :
      let r := innerLoop bp funds 10 (deficits ideal (currentWeights bp ns))
        (npArgmax (deficits ideal (currentWeights bp ns)))
      (nanLe (r.1.getD r.2.1 none) (some 0) || r.2.2 == 0) = true := by
    unfold pick at h
    dsimp only at h
    split at h
    · assumption
    · cases h
  obtain ⟨D', hl, hall, hk⟩ := innerLoop_stop bp funds 10 le_rfl
    (deficits ideal (currentWeights bp ns)) _ hne (fun _ _ => rfl) (.inr (by simp))
    (by omega) hcond
  have hmem : D'.getD i none ∈ D' := by
    rw [List.getD_eq_getElem?_getD, List.getElem?_eq_getElem (by omega), Option.getD_some]
    exact List.getElem_mem _
  obtain ⟨v, hv, hv0⟩ := hall _ hmem
  rw [hk i haff] at hv
  have hi1 : i < ideal.length := by omega
  have hi2 : i < bp.length := by omega
  unfold currentWeights at hv
  by_cases hs : dot bp ns = 0
  · exfalso
    have hs' : (List.zipWith (fun (p : K) (n : ℤ) => p * (n : K)) bp ns).sum = 0 := hs
    simp only [hs', if_true] at hv
    simp [deficits, List.getD_eq_getElem?_getD, hi, hi1, hi2] at hv
  · refine ⟨hs, ?_⟩
    have hs' : ¬ (List.zipWith (fun (p : K) (n : ℤ) => p * (n : K)) bp ns).sum = 0 := hs
    simp only [hs', if_false] at hv
    simp [deficits, List.getD_eq_getElem?_getD, hi, hi1, hi2] at hv
    simp only [List.getD_eq_getElem?_getD, List.getElem?_eq_getElem, hi, hi1, hi2,
      Option.getD_some]
    have : ideal[i] - bp[i] * (ns[i] : K) / dot bp ns ≤ 0 := by
      unfold dot; rw [hv]; exact hv0
    linarith

end Verif.Discrete
