import Verif.Model.Hrp
import Mathlib.Data.Multiset.Basic
import Mathlib.Data.List.Range
import Mathlib.Algebra.BigOperators.Group.Multiset.Basic
import Mathlib.Data.List.Perm.Subperm
import Mathlib.Data.List.NodupEquivFin
import Mathlib.Tactic.Abel

/-! The leaf order read off a valid linkage matrix is a permutation of the observations. -/

namespace Verif.Hrp
open Verif.Py

/-- The two clusters named by each row, in order. -/
def usedIds (link : List (ℕ × ℕ)) : List ℕ := link.flatMap (fun r => [r.1, r.2])

/-- A valid hierarchical linkage of `n ≥ 2` observations (what scipy's `is_valid_linkage` checks):
`n - 1` merges; row `i` only refers to observations `< n` or clusters formed in earlier rows; no
cluster is merged twice. -/
structure ValidLinkage (n : ℕ) (link : List (ℕ × ℕ)) : Prop where
  two : 2 ≤ n
  len : link.length = n - 1
  earlier : ∀ i (h : i < link.length), link[i].1 < n + i ∧ link[i].2 < n + i
  once : (usedIds link).Nodup

def leavesAt (nodes : List Tree) (x : ℕ) : Multiset ℕ :=
  (((nodes[x]?).map Tree.preOrder).getD [] : List ℕ)

theorem grow_spec (link : List (ℕ × ℕ)) : ∀ (nodes : List Tree),
    (∀ i (h : i < link.length), link[i].1 < nodes.length + i ∧ link[i].2 < nodes.length + i) →
    ∃ suf, grow nodes link = .ok (nodes ++ suf) ∧ suf.length = link.length ∧
      (suf.map (fun t => (t.preOrder : Multiset ℕ))).sum =
        ((usedIds link).map (leavesAt (nodes ++ suf))).sum := by
  induction link with
  | nil => intro nodes _; exact ⟨[], by simp [grow], rfl, by simp [usedIds]⟩
  | cons r rows ih =>
    intro nodes h
    obtain ⟨a, b⟩ := r
    have h0 := h 0 (by simp)
    simp only [List.getElem_cons_zero, Nat.add_zero] at h0
    have ha : nodes[a]? = some nodes[a] := List.getElem?_eq_getElem h0.1
    have hb : nodes[b]? = some nodes[b] := List.getElem?_eq_getElem h0.2
    obtain ⟨suf, hs, hl, he⟩ := ih (nodes ++ [.node nodes[a] nodes[b]]) (by
      intro i hi
      have := h (i + 1) (by simpa using hi)
      simp only [List.getElem_cons_succ] at this
      simp only [List.length_append, List.length_singleton]
      omega)
    refine ⟨.node nodes[a] nodes[b] :: suf, ?_, by simp [hl], ?_⟩
    · rw [grow, ha, hb]
      simp only
      rw [hs]; simp
    · simp only [List.append_assoc, List.singleton_append] at he
      have la : leavesAt (nodes ++ Tree.node nodes[a] nodes[b] :: suf) a = (nodes[a].preOrder : Multiset ℕ) := by
        unfold leavesAt
        rw [List.getElem?_append_left h0.1, ha]; rfl
      have lb : leavesAt (nodes ++ Tree.node nodes[a] nodes[b] :: suf) b = (nodes[b].preOrder : Multiset ℕ) := by
        unfold leavesAt
        rw [List.getElem?_append_left h0.2, hb]; rfl
      simp only [List.map_cons, List.sum_cons, he, usedIds, List.flatMap_cons, List.map_append,
        List.sum_append, List.map_nil, List.sum_nil, add_zero, la, lb, Tree.preOrder,
        ← Multiset.coe_add]

theorem sum_leavesAt (nodes : List Tree) :
    ((List.range nodes.length).map (leavesAt nodes)).sum =
      (nodes.map (fun t => (t.preOrder : Multiset ℕ))).sum := by
  congr 1
  apply List.ext_getElem
  · simp
  · intro i h1 h2
    simp only [List.length_map, List.length_range] at h1
    simp [leavesAt, h1]

theorem sum_singletons (l : List ℕ) : (l.map (fun i => (({i} : Multiset ℕ)))).sum = (l : Multiset ℕ) := by
  induction l with
  | nil => rfl
  | cons a l ih => simp only [List.map_cons, List.sum_cons, ih, Multiset.singleton_add, Multiset.cons_coe]

/-- The leaf order exists and lists every observation exactly once. -/
theorem quasiDiag_perm {n : ℕ} {link : List (ℕ × ℕ)} (h : ValidLinkage n link) :
    ∃ ix, quasiDiag n link = .ok ix ∧ ix.Perm (List.range n) := by
  obtain ⟨suf, hg, hl, he⟩ := grow_spec link ((List.range n).map .leaf) (by
    simpa using h.earlier)
  have h2 := h.two
  have hlen := h.len
  set nodes := (List.range n).map Tree.leaf ++ suf with hnodes
  have hnl : nodes.length = (2 * n - 2) + 1 := by
    simp only [hnodes, List.length_append, List.length_map, List.length_range, hl, hlen]; omega
  have hlast : nodes.getLast? = nodes[2 * n - 2]? := by
    rw [List.getLast?_eq_getElem?, hnl]; simp
  obtain ⟨t, ht⟩ : ∃ t, nodes[2 * n - 2]? = some t :=
    ⟨nodes[2 * n - 2]'(by omega), List.getElem?_eq_getElem (by omega)⟩
  refine ⟨t.preOrder, ?_, ?_⟩
  · simp only [quasiDiag, hg, bind, Except.bind, hlast, ht]; rfl
  · have hused : (usedIds link).Perm (List.range (2 * n - 2)) := by
      have hul : (usedIds link).length = 2 * n - 2 := by
        have : ∀ l : List (ℕ × ℕ), (usedIds l).length = 2 * l.length := by
          intro l
          induction l with
          | nil => rfl
          | cons r l ih =>
            simp only [usedIds, List.flatMap_cons, List.length_append, List.length_cons,
              List.length_nil] at ih ⊢
            omega
        rw [this, hlen]; omega
      have hsub : usedIds link ⊆ List.range (2 * n - 2) := by
        intro x hx
        simp only [usedIds, List.mem_flatMap] at hx
        obtain ⟨r, hr, hx⟩ := hx
        obtain ⟨i, hi, rfl⟩ := List.getElem_of_mem hr
        have := h.earlier i hi
        simp only [List.mem_cons, List.not_mem_nil, or_false] at hx
        rw [List.mem_range]
        rcases hx with rfl | rfl <;> omega
      exact (h.once.subperm hsub).perm_of_length_le (by simp [hul])
    have key := sum_leavesAt nodes
    rw [hnl, List.range_succ, List.map_append, List.sum_append] at key
    rw [hnodes, List.map_append, List.sum_append, he, ← hnodes] at key
    rw [((hused.map (leavesAt nodes)).sum_eq)] at key
    simp only [List.map_map, Function.comp_def, Tree.preOrder, Multiset.coe_singleton,
      List.map_cons, List.map_nil, List.sum_cons, List.sum_nil, add_zero] at key
    rw [sum_singletons, add_comm ((List.range n : List ℕ) : Multiset ℕ)] at key
    have := add_left_cancel key
    simp only [leavesAt, ht, Option.map_some, Option.getD_some] at this
    exact Multiset.coe_eq_coe.1 this

end Verif.Hrp
