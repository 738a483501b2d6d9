import Verif.Model.Py
import Mathlib.Tactic.Linarith

/-! Lemmas about the Python run-time notions. -/

set_option linter.unusedSectionVars false

namespace Verif.Py

section argmax
variable {K : Type} [Field K] [LinearOrder K] [IsStrictOrderedRing K]

/-- "`y` is not better than `x`" in the order used by `np.argmax` (NaN on top). -/
def NpLe : Option K → Option K → Prop
  | _, none => True
  | none, some _ => False
  | some y, some x => y ≤ x

theorem NpLe.refl (x : Option K) : NpLe x x := by cases x <;> simp [NpLe]

theorem NpLe.trans {x y z : Option K} (h1 : NpLe x y) (h2 : NpLe y z) : NpLe x z := by
  cases x <;> cases y <;> cases z <;> simp_all [NpLe]
  exact le_trans h1 h2

theorem npBetter_false {x y : Option K} (h : npBetter x y = false) : NpLe y x := by
  cases x <;> cases y <;> simp_all [NpLe, npBetter]

theorem npBetter_true {x y : Option K} (h : npBetter x y = true) : NpLe x y := by
  cases x <;> cases y <;> simp_all [NpLe, npBetter]
  exact le_of_lt h

theorem npArgmaxGo_spec (l pre : List (Option K)) (best : Option K) (bi : ℕ)
    (hb : pre[bi]? = some best) (hmax : ∀ y ∈ pre, NpLe y best) :
    ∃ m, (pre ++ l)[npArgmaxGo l pre.length best bi]? = some m ∧ ∀ y ∈ pre ++ l, NpLe y m := by
  induction l generalizing pre best bi with
  | nil => exact ⟨best, by simpa [npArgmaxGo] using hb, by simpa using hmax⟩
  | cons y l ih =>
    unfold npArgmaxGo
    have hbi : bi < pre.length := by
      by_contra hc
      rw [List.getElem?_eq_none (by omega)] at hb; cases hb
    by_cases h : npBetter best y = true
    · rw [if_pos h]
      have := ih (pre ++ [y]) y pre.length (by simp) (by
        intro z hz
        rcases List.mem_append.1 hz with hz | hz
        · exact (hmax z hz).trans (npBetter_true h)
        · simp at hz; subst hz; exact NpLe.refl _)
      simpa using this
    · rw [if_neg h]
      have := ih (pre ++ [y]) best bi (by
        rw [List.getElem?_append_left hbi]; exact hb) (by
        intro z hz
        rcases List.mem_append.1 hz with hz | hz
        · exact hmax z hz
        · simp at hz; subst hz; exact npBetter_false (by simpa using h))
      simpa using this

theorem npArgmax_spec (l : List (Option K)) (h : l ≠ []) :
    ∃ m, l[npArgmax l]? = some m ∧ ∀ y ∈ l, NpLe y m := by
  cases l with
  | nil => exact absurd rfl h
  | cons y l =>
    have := npArgmaxGo_spec l [y] y 0 (by simp) (by
      intro z hz; simp at hz; subst hz; exact NpLe.refl _)
    simpa [npArgmax] using this

theorem npArgmax_lt (l : List (Option K)) (h : l ≠ []) : npArgmax l < l.length := by
  obtain ⟨m, hm, -⟩ := npArgmax_spec l h
  by_contra hc
  rw [List.getElem?_eq_none (by omega)] at hm; cases hm

end argmax

namespace Dict
variable {κ ν : Type} [DecidableEq κ]

theorem get?_set (d : Dict κ ν) (k k' : κ) (v : ν) :
    get? (set d k v) k' = if k = k' then some v else get? d k' := by
  induction d with
  | nil => simp [set, get?]
  | cons x d ih =>
    obtain ⟨a, b⟩ := x
    by_cases h : a = k
    · subst h; by_cases h2 : a = k' <;> simp [set, get?, h2]
    · by_cases h2 : a = k'
      · subst h2
        have : k ≠ a := fun e => h e.symm
        simp [set, get?, h, this]
      · simp [set, get?, h, h2, ih]

theorem keys_set (d : Dict κ ν) (k : κ) (v : ν) :
    keys (set d k v) = if k ∈ keys d then keys d else keys d ++ [k] := by
  induction d with
  | nil => simp [set, keys]
  | cons x d ih =>
    obtain ⟨a, b⟩ := x
    by_cases h : a = k
    · subst h; simp [set, keys]
    · have h' : k ≠ a := fun e => h e.symm
      simp only [keys] at ih
      simp only [set, h, if_false, keys, List.map_cons, ih, List.mem_cons, h', false_or]
      split <;> simp_all

theorem set_append_of_notMem (d : Dict κ ν) (k : κ) (v : ν) (h : k ∉ keys d) :
    set d k v = d ++ [(k, v)] := by
  induction d with
  | nil => simp [set]
  | cons x d ih =>
    obtain ⟨a, b⟩ := x
    simp only [keys, List.map_cons, List.mem_cons, not_or] at h
    have h1 : a ≠ k := fun e => h.1 e.symm
    simp [set, h1, ih h.2]

theorem foldl_set_eq_append (l : List (κ × ν)) (d : Dict κ ν)
    (h : (keys d ++ keys l).Nodup) :
    l.foldl (fun d p => set d p.1 p.2) d = d ++ l := by
  induction l generalizing d with
  | nil => simp
  | cons x l ih =>
    have hx : x.1 ∉ keys d := by
      intro hm
      have := (List.nodup_append.1 h).2.2 _ hm x.1 (by simp [keys])
      exact this rfl
    rw [List.foldl_cons, set_append_of_notMem _ _ _ hx, ih]
    · simp
    · simpa [keys] using h

/-- Building a dict from pairs with distinct keys keeps the pairs unchanged, in order. -/
theorem ofPairs_eq (l : List (κ × ν)) (h : (l.map Prod.fst).Nodup) : ofPairs l = l := by
  have := foldl_set_eq_append l [] (by simpa [keys] using h)
  simpa [ofPairs] using this

theorem update_eq_append (d e : Dict κ ν) (h : (keys d ++ keys e).Nodup) :
    update d e = d ++ e := foldl_set_eq_append e d h

theorem get?_of_mem (d : Dict κ ν) (h : (keys d).Nodup) {k : κ} {v : ν} (hm : (k, v) ∈ d) :
    get? d k = some v := by
  induction d with
  | nil => simp at hm
  | cons x d ih =>
    obtain ⟨a, b⟩ := x
    simp only [keys, List.map_cons, List.nodup_cons] at h
    rcases List.mem_cons.1 hm with hm | hm
    · cases hm; simp [get?]
    · have : a ≠ k := by
        rintro rfl; exact h.1 (List.mem_map.2 ⟨_, hm, rfl⟩)
      simp [get?, this, ih h.2 hm]

theorem mem_of_get? (d : Dict κ ν) {k : κ} {v : ν} (h : get? d k = some v) : (k, v) ∈ d := by
  induction d with
  | nil => simp [get?] at h
  | cons x d ih =>
    obtain ⟨a, b⟩ := x
    by_cases hk : a = k
    · subst hk; simp [get?] at h; simp [h]
    · simp [get?, hk] at h; exact List.mem_cons_of_mem _ (ih h)

theorem get?_eq_none_iff (d : Dict κ ν) (k : κ) : get? d k = none ↔ k ∉ keys d := by
  induction d with
  | nil => simp [get?, keys]
  | cons x d ih =>
    obtain ⟨a, b⟩ := x
    by_cases hk : a = k
    · subst hk; simp [get?, keys]
    · have : k ≠ a := fun e => hk e.symm
      simp only [keys] at ih
      simp [get?, hk, keys, this, ih]

theorem nodup_keys_set (d : Dict κ ν) (k : κ) (v : ν) (h : (keys d).Nodup) :
    (keys (set d k v)).Nodup := by
  rw [keys_set]
  split
  · exact h
  · rename_i hk
    rw [List.nodup_append]
    refine ⟨h, by simp, ?_⟩
    intro a ha b hb
    simp at hb; subst hb
    rintro rfl; exact hk ha

theorem nodup_foldl_set (l : List (κ × ν)) (d : Dict κ ν) (h : (keys d).Nodup) :
    (keys (l.foldl (fun d p => set d p.1 p.2) d)).Nodup := by
  induction l generalizing d with
  | nil => simpa
  | cons x l ih => exact ih _ (nodup_keys_set _ _ _ h)

/-- A dict built from any pairs has distinct keys. -/
theorem ofPairs_nodup (l : List (κ × ν)) : (keys (ofPairs l)).Nodup :=
  nodup_foldl_set l [] (by simp [keys])

end Dict

section pyInt
variable {K : Type} [Field K] [LinearOrder K] [IsStrictOrderedRing K] [FloorRing K]

theorem pyInt_of_nonneg {x : K} (h : 0 ≤ x) : pyInt x = ⌊x⌋ := by simp [pyInt, h]

end pyInt

end Verif.Py
