import Verif.Proof.Discrete
import Verif.Spec.Discrete
import Mathlib.Data.List.Sort
import Mathlib.Data.List.Perm.Basic
import Mathlib.Algebra.BigOperators.Group.List.Lemmas

/-! From share lists to the returned dict, and the long/short branch. -/

set_option linter.unusedSectionVars false

namespace Verif.Discrete
open Verif.Py

variable {κ : Type} [DecidableEq κ]
variable {K : Type} [Field K] [LinearOrder K] [IsStrictOrderedRing K] [FloorRing K]

theorem get?_eq_find? {ν : Type} (d : Dict κ ν) (t : κ) :
    Dict.get? d t = (d.find? (fun x => x.1 = t)).map Prod.snd := by
  induction d with
  | nil => simp [Dict.get?]
  | cons x d ih =>
    obtain ⟨a, b⟩ := x
    by_cases h : a = t <;> simp [Dict.get?, h, ih]

theorem held_eq (al : Dict κ ℤ) (t : κ) : held al t = (Dict.get? al t).getD 0 := by
  rw [get?_eq_find?, held]; cases al.find? (fun x => x.1 = t) <;> simp

theorem priceOf_eq (ps : List (κ × K)) (t : κ) : priceOf ps t = pr ps t := by
  rw [pr, get?_eq_find?, priceOf]; cases ps.find? (fun x => x.1 = t) <;> simp

theorem priced_iff (ps : List (κ × K)) (t : κ) :
    (t ∈ ps.map Prod.fst ∧ 0 < priceOf ps t) ↔ ∃ p, 0 < p ∧ Dict.get? ps t = some p := by
  rw [priceOf_eq, pr]
  constructor
  · rintro ⟨h1, h2⟩
    cases h : Dict.get? ps t with
    | none => exact absurd h1 ((Dict.get?_eq_none_iff ps t).1 h)
    | some p => rw [h] at h2; exact ⟨p, h2, rfl⟩
  · rintro ⟨p, hp, h⟩
    rw [h]
    exact ⟨List.mem_map.2 ⟨_, Dict.mem_of_get? _ h, rfl⟩, hp⟩

theorem held_removeZero (d : Dict κ ℤ) (h : (Dict.keys d).Nodup) (t : κ) :
    held (removeZero d) t = held d t := by
  simp only [held_eq]
  induction d with
  | nil => simp [removeZero]
  | cons x d ih =>
    obtain ⟨a, b⟩ := x
    simp only [Dict.keys, List.map_cons, List.nodup_cons] at h
    have ih := ih h.2
    by_cases hb : b = 0
    · subst hb
      have e : removeZero ((a, (0 : ℤ)) :: d) = removeZero d := by simp [removeZero]
      rw [e, ih]
      by_cases ha : a = t
      · subst ha
        have : Dict.get? d a = none := (Dict.get?_eq_none_iff d a).2 h.1
        simp [Dict.get?, this]
      · simp [Dict.get?, ha]
    · have e : removeZero ((a, b) :: d) = (a, b) :: removeZero d := by simp [removeZero, hb]
      rw [e]
      by_cases ha : a = t
      · simp [Dict.get?, ha]
      · simpa [Dict.get?, ha] using ih

theorem keys_removeZero_nodup (d : Dict κ ℤ) (h : (Dict.keys d).Nodup) :
    (Dict.keys (removeZero d)).Nodup :=
  List.Nodup.sublist (List.Sublist.map _ List.filter_sublist) h

theorem mem_removeZero (d : Dict κ ℤ) (x : κ × ℤ) : x ∈ removeZero d ↔ x ∈ d ∧ x.2 ≠ 0 := by
  simp [removeZero]

theorem zip_keys (ts : List κ) (ms : List ℤ) (h : ms.length = ts.length) :
    Dict.keys (List.zip ts ms) = ts := by
  simp [Dict.keys, List.map_fst_zip, h]

theorem held_zip (ts : List κ) (ms : List ℤ) (hn : ts.Nodup) (h : ms.length = ts.length)
    (i : ℕ) (hi : i < ts.length) : held (List.zip ts ms) ts[i] = ms.getD i 0 := by
  have hi2 : i < ms.length := by omega
  have hm : (ts[i], ms[i]) ∈ List.zip ts ms := by
    rw [List.mem_iff_getElem]
    exact ⟨i, by simp; omega, by simp⟩
  rw [held_eq, Dict.get?_of_mem _ (by rw [zip_keys _ _ h]; exact hn) hm]
  simp [List.getD_eq_getElem?_getD, hi2]

theorem zipWith_map_held (f : κ → ℤ) (g : κ → K) (ts : List κ) :
    (List.zipWith (fun (p : K) (n : ℤ) => p * (n : K)) (ts.map g) (ts.map f)).sum =
      (ts.map (fun t => g t * (f t : K))).sum := by
  induction ts with
  | nil => simp
  | cons t ts ih => simp

theorem eq_map_held (ts : List κ) (ms : List ℤ) (hn : ts.Nodup) (h : ms.length = ts.length) :
    ms = ts.map (held (List.zip ts ms)) := by
  apply List.ext_getElem (by simp [h])
  intro i h1 h2
  have := held_zip ts ms hn h i (by omega)
  simp only [List.getElem_map, this, List.getD_eq_getElem?_getD, h1, List.getElem?_eq_getElem,
    Option.getD_some]

/-- Everything known about a finished long-only greedy run, in terms of the returned dict. -/
structure LongResult (ws prices : List (κ × K)) (total : K) (al : Dict κ ℤ) (left : K) :
    Prop where
  left_nonneg : 0 ≤ left
  balance : left + valueIn prices (ws.map Prod.fst) al = total
  floor_le : ∀ x ∈ ws, ⌊x.2 * total / priceOf prices x.1⌋ ≤ held al x.1
  nonneg : ∀ t, 0 ≤ held al t
  keys_nodup : (al.map Prod.fst).Nodup
  mem_iff : ∀ t, t ∈ al.map Prod.fst ↔ t ∈ ws.map Prod.fst ∧ held al t ≠ 0
  stop : ws.length ≤ 10 → ∀ x ∈ ws, priceOf prices x.1 ≤ left →
    0 < valueIn prices (ws.map Prod.fst) al ∧
    x.2 * valueIn prices (ws.map Prod.fst) al ≤ priceOf prices x.1 * (held al x.1 : K)

theorem greedyLong_spec (fuel : ℕ) (ws prices : List (κ × K)) (total : K)
    (hn : (ws.map Prod.fst).Nodup) (hne : ws ≠ []) (hw : ∀ x ∈ ws, 0 ≤ x.2)
    (hp : ∀ x ∈ ws, 0 < priceOf prices x.1) (ht : 0 < total) {al : Dict κ ℤ} {left : K}
    (h : greedyLong fuel ws prices total = .ok (some (al, left))) :
    LongResult ws prices total al left := by
  unfold greedyLong at h
  cases hf : firstRound prices total ws total with
  | error e => simp [hf, bind, Except.bind] at h
  | ok r =>
    obtain ⟨f, ns, bp⟩ := r
    simp only [hf, bind, Except.bind] at h
    obtain ⟨hbp, hns, hbal, hf0⟩ := firstRound_ok prices total ws total hf
    cases hs : secondRound (ws.map Prod.snd) bp fuel f ns with
    | none => simp [hs] at h
    | some r =>
      obtain ⟨left', ms⟩ := r
      simp only [hs, Except.ok.injEq, Option.some.injEq, Prod.mk.injEq] at h
      obtain ⟨h1, rfl⟩ := h
      have l1 : (ws.map Prod.snd).length = ns.length := by simp [hns]
      have l2 : bp.length = ns.length := by simp [hns, hbp]
      have l3 : ns ≠ [] := by rw [hns]; simpa using hne
      obtain ⟨hlen, hb, hl0, hmono, hend⟩ :=
        secondRound_inv _ bp fuel f ns l1 l2 l3 (hf0 ht.le) hs
      have lts : ms.length = (ws.map Prod.fst).length := by rw [hlen, hns]; simp
      have hkeys : Dict.keys (List.zip (ws.map Prod.fst) ms) = ws.map Prod.fst := zip_keys _ _ lts
      have hkn : (Dict.keys (List.zip (ws.map Prod.fst) ms)).Nodup := by rw [hkeys]; exact hn
      rw [Dict.ofPairs_eq _ hkn] at h1
      have hheld : ∀ t, held al t = held (List.zip (ws.map Prod.fst) ms) t := by
        intro t; rw [← h1, held_removeZero _ hkn]
      have hms : ms = (ws.map Prod.fst).map (held al) := by
        rw [funext hheld]; exact eq_map_held _ _ hn lts
      have hbp' : bp = (ws.map Prod.fst).map (priceOf prices) := by
        rw [hbp, List.map_map]; apply List.map_congr_left; intro x _; simp [priceOf_eq]
      have hval : dot bp ms = valueIn prices (ws.map Prod.fst) al := by
        rw [hms, hbp', dot, zipWith_map_held]; rfl
      -- pointwise facts at position `i`
      have hget : ∀ i (hi : i < ws.length), ms.getD i 0 = held al ws[i].1 := by
        intro i hi; rw [hms]; simp [List.getD_eq_getElem?_getD, hi]
      have hgetp : ∀ i (hi : i < ws.length), bp.getD i 0 = priceOf prices ws[i].1 := by
        intro i hi; rw [hbp']; simp [List.getD_eq_getElem?_getD, hi]
      have hfloor : ∀ x ∈ ws, ⌊x.2 * total / priceOf prices x.1⌋ ≤ held al x.1 := by
        intro x hx
        obtain ⟨i, hi, rfl⟩ := List.mem_iff_getElem.1 hx
        have hm := hmono i
        rw [hget i hi] at hm
        refine le_trans ?_ hm
        rw [hns]
        simp only [List.getD_eq_getElem?_getD, List.getElem?_map, List.getElem?_eq_getElem hi,
          Option.map_some, Option.getD_some]
        rw [← priceOf_eq, pyInt_of_nonneg]
        have := hw _ hx; have := hp _ hx
        positivity
      have hnn : ∀ t, 0 ≤ held al t := by
        intro t
        by_cases htm : t ∈ ws.map Prod.fst
        · obtain ⟨x, hx, rfl⟩ := List.mem_map.1 htm
          refine le_trans ?_ (hfloor x hx)
          apply Int.floor_nonneg.2
          have := hw _ hx; have := hp _ hx
          positivity
        · rw [hheld, held_eq, (Dict.get?_eq_none_iff _ t).2 (by rw [hkeys]; exact htm)]
          simp
      have hbal' : left' + valueIn prices (ws.map Prod.fst) al = total := by
        rw [← hval, hb, hbal]
      refine ⟨hl0, hbal', hfloor, hnn, ?_, ?_, ?_⟩
      · rw [← h1]; exact keys_removeZero_nodup _ hkn
      · intro t
        constructor
        · intro hm
          obtain ⟨x, hx, rfl⟩ := List.mem_map.1 hm
          have hx' := hx
          rw [← h1, mem_removeZero] at hx'
          have hk : x.1 ∈ Dict.keys (List.zip (ws.map Prod.fst) ms) :=
            List.mem_map.2 ⟨x, hx'.1, rfl⟩
          refine ⟨by rw [hkeys] at hk; exact hk, ?_⟩
          rw [hheld, held_eq, Dict.get?_of_mem _ hkn (show (x.1, x.2) ∈ _ from hx'.1)]
          exact hx'.2
        · rintro ⟨hm, h0⟩
          rw [hheld, held_eq] at h0
          cases hg : Dict.get? (List.zip (ws.map Prod.fst) ms) t with
          | none => rw [hg] at h0; simp at h0
          | some v =>
            rw [hg] at h0
            refine List.mem_map.2 ⟨(t, v), ?_, rfl⟩
            rw [← h1, mem_removeZero]
            exact ⟨Dict.mem_of_get? _ hg, h0⟩
      · intro h10 x hx haff
        obtain ⟨i, hi, rfl⟩ := List.mem_iff_getElem.1 hx
        have hl : left' ≠ 0 := by
          intro e; rw [e] at haff; exact absurd (hp _ hx) (not_lt.2 haff)
        rcases hend with he | he
        · exact absurd he hl
        · have hin : i < ms.length := by rw [lts]; simpa using hi
          have := pick_none (ws.map Prod.snd) bp left' ms (by rw [l1, hlen]) (by rw [l2, hlen])
            (by intro e; rw [e] at hin; simp at hin) (by rw [lts]; simpa using h10) he i hin
            (by rw [hgetp i hi]; exact haff)
          obtain ⟨hd0, hd⟩ := this
          rw [hval] at hd0 hd
          have hvn : 0 ≤ valueIn prices (ws.map Prod.fst) al := by
            apply List.sum_nonneg
            intro y hy
            obtain ⟨t, ht', rfl⟩ := List.mem_map.1 hy
            obtain ⟨z, hz, rfl⟩ := List.mem_map.1 ht'
            have h1 := hp z hz
            have h2 : (0 : K) ≤ (held al z.1 : K) := by exact_mod_cast hnn z.1
            positivity
          have hvp : 0 < valueIn prices (ws.map Prod.fst) al := lt_of_le_of_ne hvn (Ne.symm hd0)
          refine ⟨hvp, ?_⟩
          rw [hget i hi, hgetp i hi, le_div_iff₀ hvp] at hd
          simpa [List.getD_eq_getElem?_getD, hi] using hd

theorem exists_min_price (ps : List K) (h : ∀ p ∈ ps, 0 < p) : ∃ m, 0 < m ∧ ∀ p ∈ ps, m ≤ p := by
  induction ps with
  | nil => exact ⟨1, one_pos, by simp⟩
  | cons p ps ih =>
    obtain ⟨m, hm, hall⟩ := ih (fun q hq => h q (by simp [hq]))
    refine ⟨min p m, lt_min (h p (by simp)) hm, ?_⟩
    intro q hq
    rcases List.mem_cons.1 hq with rfl | hq
    · exact min_le_left _ _
    · exact (min_le_right _ _).trans (hall q hq)

/-- A long-only run always finishes (with a result or with an exception). -/
theorem greedyLong_finishes (ws prices : List (κ × K)) (total : K)
    (hne : ws ≠ []) (hp : ∀ x ∈ ws, x.1 ∈ prices.map Prod.fst → 0 < priceOf prices x.1) :
    ∃ N, ∃ r : Except PyErr (Dict κ ℤ × K), ∀ fuel, N ≤ fuel →
      greedyLong fuel ws prices total = r.map some := by
  unfold greedyLong
  cases hf : firstRound prices total ws total with
  | error e => exact ⟨0, .error e, fun _ _ => by simp [bind, Except.bind, Except.map]⟩
  | ok r =>
    obtain ⟨f, ns, bp⟩ := r
    obtain ⟨hbp, hns, -, -⟩ := firstRound_ok prices total ws total hf
    obtain ⟨m, hm, hall⟩ := exists_min_price bp (by
      intro p hpm
      rw [hbp] at hpm
      obtain ⟨x, hx, rfl⟩ := List.mem_map.1 hpm
      rw [← priceOf_eq]; exact hp x hx (firstRound_keys prices total ws total hf x hx))
    have l1 : (ws.map Prod.snd).length = ns.length := by simp [hns]
    have l2 : bp.length = ns.length := by simp [hns, hbp]
    have l3 : ns ≠ [] := by rw [hns]; simpa using hne
    obtain ⟨N, hN⟩ : ∃ N : ℕ, f / m ≤ N := exists_nat_ge _
    have hN' : f ≤ N * m := by rwa [div_le_iff₀ hm] at hN
    obtain ⟨⟨left, ms⟩, hr⟩ := secondRound_terminates (ws.map Prod.snd) bp m hall N f ns l1 l2 l3 hN'
    refine ⟨N, .ok (removeZero (Dict.ofPairs (List.zip (ws.map Prod.fst) ms)), left), ?_⟩
    intro fuel hle
    have := secondRound_mono _ _ N fuel hle _ _ hr
    simp only [bind, Except.bind, this, Except.map]

theorem greedyLong_succeeds (ws prices : List (κ × K)) (total : K)
    (hne : ws ≠ []) (hw : ∀ x ∈ ws, 0 ≤ x.2) (hsum : (ws.map Prod.snd).sum ≤ 1)
    (hp : ∀ x ∈ ws, x.1 ∈ prices.map Prod.fst ∧ 0 < priceOf prices x.1) (ht : 0 < total) :
    ∃ N, ∃ al left, ∀ fuel, N ≤ fuel → greedyLong fuel ws prices total = .ok (some (al, left)) := by
  obtain ⟨N, r, hr⟩ := greedyLong_finishes ws prices total hne (fun x hx _ => (hp x hx).2)
  obtain ⟨⟨f, ns, bp⟩, hf⟩ := firstRound_succeeds prices total ws total
    (fun x hx => (priced_iff _ _).1 (hp x hx)) hw ht.le (by nlinarith)
  cases r with
  | ok r => exact ⟨N, r.1, r.2, hr⟩
  | error e =>
    exfalso
    have := hr N le_rfl
    unfold greedyLong at this
    simp only [hf, bind, Except.bind, Except.map] at this
    split at this <;> cases this

/-! ### Sorting -/

theorem sortDesc_perm (ws : List (κ × K)) : (sortDesc ws).Perm ws := List.perm_insertionSort _ _

theorem sortDesc_last (ws : List (κ × K)) (x : κ × K) (h : (sortDesc ws).getLast? = some x) :
    x ∈ ws ∧ ∀ y ∈ ws, x.2 ≤ y.2 := by
  have hx : x ∈ sortDesc ws := List.mem_of_getLast? h
  refine ⟨(sortDesc_perm ws).mem_iff.1 hx, ?_⟩
  intro y hy
  have hy' := (sortDesc_perm ws).mem_iff.2 hy
  have hs : (sortDesc ws).Pairwise (fun a b => b.2 ≤ a.2) := by
    have : Std.Total (fun a b : κ × K => b.2 ≤ a.2) := ⟨fun a b => le_total _ _⟩
    have : IsTrans (κ × K) (fun a b => b.2 ≤ a.2) := ⟨fun a b c h1 h2 => le_trans h2 h1⟩
    exact List.pairwise_insertionSort _ _
  obtain ⟨ys, hys⟩ : ∃ ys, sortDesc ws = ys ++ [x] := by
    rcases List.eq_nil_or_concat (sortDesc ws) with e | ⟨ys, z, e⟩
    · rw [e] at h; simp at h
    · rw [e] at h; simp at h; exact ⟨ys, by rw [e]; simp [h]⟩
  rw [hys] at hy' hs
  rcases List.mem_append.1 hy' with hm | hm
  · exact (List.pairwise_append.1 hs).2.2 y hm x (by simp)
  · simp at hm; rw [hm]

theorem valueIn_perm (prices : List (κ × K)) {ts us : List κ} (h : ts.Perm us) (al : Dict κ ℤ) :
    valueIn prices ts al = valueIn prices us al := (h.map _).sum_eq

theorem LongResult.perm {ws ws' prices : List (κ × K)} {total : K} {al : Dict κ ℤ} {left : K}
    (hp : ws.Perm ws') (h : LongResult ws prices total al left) :
    LongResult ws' prices total al left := by
  have hk := hp.map Prod.fst
  have hv := valueIn_perm prices hk al
  exact ⟨h.left_nonneg, by rw [← hv]; exact h.balance, fun x hx => h.floor_le x (hp.mem_iff.2 hx),
    h.nonneg, h.keys_nodup, fun t => by rw [h.mem_iff, hk.mem_iff],
    fun hl x hx => by rw [← hv]; exact h.stop (by rw [hp.length_eq]; exact hl) x (hp.mem_iff.2 hx)⟩

/-! ### The long/short branch -/

theorem subPrices_spec (prices : List (κ × K)) (ks : List κ) {ps : List (κ × K)}
    (h : subPrices prices ks = .ok ps) :
    ps = ks.map (fun k => (k, priceOf prices k)) ∧ ∀ k ∈ ks, k ∈ prices.map Prod.fst := by
  unfold subPrices at h
  induction ks generalizing ps with
  | nil => simp [pure, Except.pure] at h; simp [h]
  | cons k ks ih =>
    rw [List.mapM_cons] at h
    cases hl : Dict.get? prices k with
    | none => simp [lookup, hl, bind, Except.bind] at h
    | some p =>
      simp only [lookup, hl, bind, Except.bind, pure, Except.pure] at h
      split at h
      · cases h
      · rename_i v hr
        cases h
        obtain ⟨h1, h2⟩ := ih hr
        refine ⟨by simp [h1, priceOf_eq, pr, hl], ?_⟩
        intro j hj
        rcases List.mem_cons.1 hj with rfl | hj
        · exact List.mem_map.2 ⟨_, Dict.mem_of_get? _ hl, rfl⟩
        · exact h2 j hj

theorem subPrices_ok (prices : List (κ × K)) (ks : List κ) (h : ∀ k ∈ ks, k ∈ prices.map Prod.fst) :
    subPrices prices ks = .ok (ks.map (fun k => (k, priceOf prices k))) := by
  unfold subPrices
  induction ks with
  | nil => rfl
  | cons k ks ih =>
    rw [List.mapM_cons]
    cases hl : Dict.get? prices k with
    | none => exact absurd (h k (by simp)) ((Dict.get?_eq_none_iff _ _).1 hl)
    | some p =>
      have := ih (fun j hj => h j (by simp [hj]))
      simp only [lookup, hl, bind, Except.bind, pure, Except.pure] at this ⊢
      rw [this]
      simp [priceOf_eq, pr, hl]

theorem priceOf_map (f : κ → K) (ks : List κ) (k : κ) (h : k ∈ ks) :
    priceOf (ks.map (fun k => (k, f k))) k = f k := by
  rw [priceOf_eq, pr]
  induction ks with
  | nil => simp at h
  | cons j ks ih =>
    by_cases e : j = k
    · subst e; simp [Dict.get?]
    · have e' : k ≠ j := fun x => e x.symm
      simp [e'] at h
      simpa [Dict.get?, e] using ih h

theorem LongResult.congr_prices {ws prices prices' : List (κ × K)} {total : K} {al : Dict κ ℤ}
    {left : K} (he : ∀ x ∈ ws, priceOf prices x.1 = priceOf prices' x.1)
    (h : LongResult ws prices total al left) : LongResult ws prices' total al left := by
  have hv : valueIn prices (ws.map Prod.fst) al = valueIn prices' (ws.map Prod.fst) al := by
    unfold valueIn
    congr 1
    apply List.map_congr_left
    intro t ht
    obtain ⟨x, hx, rfl⟩ := List.mem_map.1 ht
    rw [he x hx]
  exact ⟨h.left_nonneg, by rw [← hv]; exact h.balance,
    fun x hx => by rw [← he x hx]; exact h.floor_le x hx, h.nonneg, h.keys_nodup, h.mem_iff,
    fun hl x hx => by rw [← hv, ← he x hx]; exact h.stop hl x hx⟩

theorem sum_pos_of (l : List (κ × K)) (h0 : ∀ x ∈ l, 0 ≤ x.2) (h1 : ∃ x ∈ l, 0 < x.2) :
    0 < (l.map Prod.snd).sum := by
  obtain ⟨x, hx, hpos⟩ := h1
  induction l with
  | nil => simp at hx
  | cons y l ih =>
    have hs : 0 ≤ (l.map Prod.snd).sum := by
      apply List.sum_nonneg
      intro z hz
      obtain ⟨w, hw, rfl⟩ := List.mem_map.1 hz
      exact h0 w (by simp [hw])
    have hy := h0 y (by simp)
    simp only [List.map_cons, List.sum_cons]
    rcases List.mem_cons.1 hx with rfl | hx
    · linarith
    · have := ih (fun z hz => h0 z (by simp [hz])) hx; linarith

/-- "Make them sum to one" works when some weight is positive. -/
theorem normalise_spec (l : List (κ × K)) (h0 : ∀ x ∈ l, 0 ≤ x.2) (h1 : ∃ x ∈ l, 0 < x.2) :
    ∃ l', normalise l = .ok l' ∧ l'.map Prod.fst = l.map Prod.fst ∧ (∀ x ∈ l', 0 ≤ x.2) ∧
      (l'.map Prod.snd).sum = 1 ∧ l' ≠ [] := by
  have hs := sum_pos_of l h0 h1
  refine ⟨l.map (fun x => (x.1, x.2 / (l.map Prod.snd).sum)), ?_, ?_, ?_, ?_, ?_⟩
  · unfold normalise; simp [hs.ne']
  · simp
  · intro x hx
    obtain ⟨y, hy, rfl⟩ := List.mem_map.1 hx
    exact div_nonneg (h0 y hy) hs.le
  · have : ∀ (c : K) (m : List (κ × K)), ((m.map (fun x => (x.1, x.2 / c))).map Prod.snd).sum =
        (m.map Prod.snd).sum / c := by
      intro c m
      induction m with
      | nil => simp
      | cons y m ih => simp only [List.map_cons, List.sum_cons, ih]; ring
    rw [this, div_self hs.ne']
  · obtain ⟨x, hx, -⟩ := h1
    intro e
    rw [List.map_eq_nil_iff] at e
    rw [e] at hx; simp at hx

theorem subGreedy_succeeds (ws prices : List (κ × K)) (val : K)
    (hn : (ws.map Prod.fst).Nodup) (hne : ws ≠ []) (hw : ∀ x ∈ ws, 0 ≤ x.2)
    (hsum : (ws.map Prod.snd).sum = 1)
    (hp : ∀ x ∈ ws, x.1 ∈ prices.map Prod.fst ∧ 0 < priceOf prices x.1) (ht : 0 < val) :
    ∃ N, ∃ al left, LongResult ws prices val al left ∧
      ∀ fuel, N ≤ fuel → subGreedy fuel ws prices val = .ok (some (al, left)) := by
  have hperm := sortDesc_perm ws
  have hk : ∀ k ∈ ws.map Prod.fst, k ∈ prices.map Prod.fst := by
    intro k hk
    obtain ⟨x, hx, rfl⟩ := List.mem_map.1 hk
    exact (hp x hx).1
  have hps := subPrices_ok prices (ws.map Prod.fst) hk
  have hpr : ∀ x ∈ ws, priceOf ((ws.map Prod.fst).map (fun k => (k, priceOf prices k))) x.1 =
      priceOf prices x.1 := fun x hx =>
    priceOf_map _ _ _ (List.mem_map.2 ⟨x, hx, rfl⟩)
  have hne' : sortDesc ws ≠ [] := by
    intro e; rw [e] at hperm; exact hne hperm.symm.eq_nil
  have hw' : ∀ x ∈ sortDesc ws, 0 ≤ x.2 := fun x hx => hw x (hperm.mem_iff.1 hx)
  have hn' : ((sortDesc ws).map Prod.fst).Nodup := (hperm.map _).nodup_iff.2 hn
  have hp' : ∀ x ∈ sortDesc ws,
      0 < priceOf ((ws.map Prod.fst).map (fun k => (k, priceOf prices k))) x.1 := by
    intro x hx
    have hx' := hperm.mem_iff.1 hx
    rw [hpr x hx']; exact (hp x hx').2
  obtain ⟨N, al, left, hr⟩ := greedyLong_succeeds (sortDesc ws)
    ((ws.map Prod.fst).map (fun k => (k, priceOf prices k))) val hne' hw'
    (by rw [(hperm.map Prod.snd).sum_eq, hsum])
    (fun x hx => ⟨List.mem_map.2 ⟨(x.1, priceOf prices x.1), List.mem_map.2 ⟨x.1,
      List.mem_map.2 ⟨x, hperm.mem_iff.1 hx, rfl⟩, rfl⟩, rfl⟩, hp' x hx⟩) ht
  refine ⟨N, al, left, ?_, ?_⟩
  · exact ((greedyLong_spec N _ _ val hn' hne' hw' hp' ht (hr N le_rfl)).perm hperm).congr_prices
      hpr
  · intro fuel hle
    unfold subGreedy
    simp only [hps, bind, Except.bind]
    rw [if_neg (not_le.2 ht), if_neg hne, hr fuel hle]

theorem subGreedy_finishes (ws prices : List (κ × K)) (val : K)
    (hp : ∀ q ∈ prices, 0 < q.2) :
    ∃ N, ∃ r : Except PyErr (Dict κ ℤ × K), ∀ fuel, N ≤ fuel →
      subGreedy fuel ws prices val = r.map some := by
  unfold subGreedy
  cases hs : subPrices prices (ws.map Prod.fst) with
  | error e => exact ⟨0, .error e, fun _ _ => rfl⟩
  | ok ps =>
    simp only [bind, Except.bind]
    obtain ⟨hps, hk⟩ := subPrices_spec prices _ hs
    by_cases hv : val ≤ 0
    · exact ⟨0, .error .valueError, fun _ _ => by rw [if_pos hv]; rfl⟩
    · by_cases hne : ws = []
      · exact ⟨0, .error .indexError, fun _ _ => by rw [if_neg hv, if_pos hne]; rfl⟩
      · have hperm := sortDesc_perm ws
        have hne' : sortDesc ws ≠ [] := by
          intro e; rw [e] at hperm; exact hne hperm.symm.eq_nil
        obtain ⟨N, r, hr⟩ := greedyLong_finishes (sortDesc ws) ps val hne' (by
          intro x hx _
          have hx' : x.1 ∈ ws.map Prod.fst := List.mem_map.2 ⟨x, hperm.mem_iff.1 hx, rfl⟩
          rw [hps, priceOf_map _ _ _ hx', priceOf_eq, pr]
          cases hg : Dict.get? prices x.1 with
          | none => exact absurd (hk _ hx') ((Dict.get?_eq_none_iff _ _).1 hg)
          | some v => exact hp _ (Dict.mem_of_get? _ hg))
        exact ⟨N, r, fun fuel hle => by rw [if_neg hv, if_neg hne, hr fuel hle]⟩

theorem held_append (a b : Dict κ ℤ) (t : κ) :
    held (a ++ b) t = if t ∈ a.map Prod.fst then held a t else held b t := by
  simp only [held_eq]
  induction a with
  | nil => simp
  | cons x a ih =>
    obtain ⟨k, v⟩ := x
    by_cases h : k = t
    · subst h; simp [Dict.get?]
    · have h' : t ≠ k := fun e => h e.symm
      simp only [List.cons_append, Dict.get?, h, if_false, ih, List.map_cons, List.mem_cons, h',
        false_or]

theorem held_neg (a : Dict κ ℤ) (t : κ) :
    held (a.map (fun x => (x.1, -x.2))) t = - held a t := by
  simp only [held_eq]
  induction a with
  | nil => simp [Dict.get?]
  | cons x a ih =>
    obtain ⟨k, v⟩ := x
    by_cases h : k = t
    · subst h; simp [Dict.get?]
    · simpa [Dict.get?, h] using ih

theorem held_of_notMem (a : Dict κ ℤ) (t : κ) (h : t ∉ a.map Prod.fst) : held a t = 0 := by
  rw [held_eq, (Dict.get?_eq_none_iff a t).2 h]; rfl

end Verif.Discrete
