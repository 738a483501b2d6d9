import Verif.Spec.Charts
import Verif.Proof.DiscreteTop
import Verif.Props.Hrp
import Verif.Props.HrpObj
import Verif.Props.InitTail

/-! C89: the charts show the data they are given. -/

namespace Verif.Charts
open Verif.Py

/-! ### Bars -/

section
variable {κ K : Type} [DecidableEq κ] [Field K] [LinearOrder K] [IsStrictOrderedRing K] [FloorRing K]

theorem range_get {n i p : ℕ} (h : (List.range n)[i]? = some p) : i = p ∧ p < n := by
  obtain ⟨hi, h⟩ := List.getElem?_eq_some_iff.1 h
  rw [List.getElem_range] at h
  subst h
  exact ⟨rfl, by simpa using hi⟩

theorem shows_iff (weights : Dict κ K) (p : ℕ) (t : κ) (v : K) :
    (weightBars weights).Shows p t v ↔ (Discrete.sortDesc weights)[p]? = some (t, v) := by
  unfold Bars.Shows weightBars
  simp only [List.length_map]
  constructor
  · rintro ⟨⟨i, hi, hv⟩, j, hj, ht⟩
    obtain ⟨rfl, -⟩ := range_get hi
    obtain ⟨rfl, -⟩ := range_get hj
    rw [List.getElem?_map] at hv ht
    cases e : (Discrete.sortDesc weights)[j]? with
    | none => simp [e] at hv
    | some x =>
      simp only [e, Option.map_some, Option.some.injEq] at hv ht
      rw [← hv, ← ht]
  · intro h
    obtain ⟨hp, -⟩ := List.getElem?_eq_some_iff.1 h
    refine ⟨⟨p, ?_, ?_⟩, p, ?_, ?_⟩
    · simp [hp]
    · rw [List.getElem?_map, h]; rfl
    · simp [hp]
    · rw [List.getElem?_map, h]; rfl

theorem pairwise_desc (weights : Dict κ K) :
    (Discrete.sortDesc weights).Pairwise (fun a b => b.2 ≤ a.2) := by
  have : Std.Total (fun a b : κ × K => b.2 ≤ a.2) := ⟨fun a b => le_total _ _⟩
  have : IsTrans (κ × K) (fun a b => b.2 ≤ a.2) := ⟨fun a b c h h' => h'.trans h⟩
  exact List.pairwise_insertionSort _ _

/-- **C89 (weights).**  In the chart of `plot_weights` every ticker with its weight, and nothing else, is shown; at each
height there is one ticker with one bar; what is further up is at least as heavy; and of two tickers with the same weight
the one that comes first in the portfolio is further up. -/
theorem C89_weights (weights : Dict κ K) :
    (∀ t v, (∃ p, (weightBars weights).Shows p t v) ↔ (t, v) ∈ weights) ∧
    (∀ p t v t' v', (weightBars weights).Shows p t v → (weightBars weights).Shows p t' v' → t = t' ∧ v = v') ∧
    ((weightBars weights).vals.length = weights.length ∧ (weightBars weights).labels.length = weights.length) ∧
    (∀ p q t v t' v', (weightBars weights).Shows p t v → (weightBars weights).Shows q t' v' →
      (weightBars weights).Above p q → v' ≤ v) ∧
    (∀ t t' v, [(t, v), (t', v)].Sublist weights → ∃ p q, (weightBars weights).Shows p t v ∧
      (weightBars weights).Shows q t' v ∧ (weightBars weights).Above p q) := by
  refine ⟨fun t v => ?_, fun p t v t' v' h h' => ?_, ⟨?_, ?_⟩, fun p q t v t' v' h h' ha => ?_, fun t t' v h => ?_⟩
  · simp only [shows_iff]
    rw [← List.mem_iff_getElem?, (Discrete.sortDesc_perm weights).mem_iff]
  · rw [shows_iff] at h h'
    rw [h, Option.some.injEq, Prod.mk.injEq] at h'
    exact h'
  · simp [weightBars, (Discrete.sortDesc_perm weights).length_eq]
  · simp [weightBars, (Discrete.sortDesc_perm weights).length_eq]
  · rw [shows_iff] at h h'
    have hpq : p < q := by simpa [Bars.Above, weightBars] using ha
    obtain ⟨hp, h⟩ := List.getElem?_eq_some_iff.1 h
    obtain ⟨hq, h'⟩ := List.getElem?_eq_some_iff.1 h'
    have := List.pairwise_iff_getElem.1 (pairwise_desc weights) p q hp hq hpq
    rwa [h, h'] at this
  · have hs : [(t, v), (t', v)].Sublist (Discrete.sortDesc weights) := by
      have : Std.Total (fun a b : κ × K => b.2 ≤ a.2) := ⟨fun a b => le_total _ _⟩
      have : IsTrans (κ × K) (fun a b => b.2 ≤ a.2) := ⟨fun a b c h h' => h'.trans h⟩
      exact List.pair_sublist_insertionSort (r := fun a b : κ × K => b.2 ≤ a.2) (le_refl v) h
    obtain ⟨f, hf⟩ := List.sublist_iff_exists_orderEmbedding_getElem?_eq.1 hs
    refine ⟨f 0, f 1, ?_, ?_, ?_⟩
    · rw [shows_iff, ← hf 0]; rfl
    · rw [shows_iff, ← hf 1]; rfl
    · simpa [Bars.Above, weightBars] using f.lt_iff_lt.2 (by decide : (0 : ℕ) < 1)

/-- The chart does not depend on the figure, the keywords or what is drawn elsewhere. -/
theorem C89_weights_chart (weights : Dict κ K) (ax : Option ℕ) (k : Keywords) (p : Pyplot) :
    (plotWeights weights ax k p).2.1 = weightBars weights := rfl

end

/-! ### Files -/

theorem gcf_current (p : Pyplot) : p.gcf.2.current = some p.gcf.1 ∧ ∀ f, p.current = some f → p.gcf = (f, p) := by
  unfold Pyplot.gcf Pyplot.figure
  cases h : p.current <;> simp [h]

theorem save_mem (k : Keywords) (p : Pyplot) (f : ℕ) (hf : p.current = some f) (g : ℕ) (name : String) (d : ℕ) :
    Effect.save g name d ∈ (plotIo k p).2 ↔ g = f ∧ k.filename = some name ∧ name ≠ "" ∧ d = k.dpi.getD 300 := by
  unfold plotIo
  rw [(gcf_current p).2 f hf]
  have hd : Effect.save g name d ∉ (if k.showfig then [Effect.display] else []) := by
    by_cases h : k.showfig <;> simp [h]
  cases hk : k.filename with
  | none => simp [hd]
  | some s =>
    by_cases hs : s = ""
    · subst hs
      simp only [if_true, List.nil_append, hd, false_iff, Option.some.injEq]
      rintro ⟨-, rfl, h, -⟩
      exact h rfl
    · simp only [hs, if_false, List.singleton_append, List.mem_cons, hd, or_false, Effect.save.injEq, Option.some.injEq]
      constructor
      · rintro ⟨rfl, rfl, rfl⟩; exact ⟨rfl, rfl, hs, rfl⟩
      · rintro ⟨rfl, rfl, -, rfl⟩; exact ⟨rfl, rfl, rfl⟩

/-- **C89 (files, partial).**  If no axes are given, or axes on the current figure, then the chart is saved: the file
asked for and no other gets the figure drawn on, and if none is asked for nothing is saved.  Left out, and false of the
code, are axes on another figure. -/
theorem C89_saved_partial (ax : Option ℕ) (k : Keywords) (p : Pyplot) (h : ax = none ∨ ax = p.current) (g : ℕ)
    (name : String) (d : ℕ) :
    Effect.save g name d ∈ (plotIo k (axes ax p).2).2 ↔
      g = (axes ax p).1 ∧ k.filename = some name ∧ name ≠ "" ∧ d = k.dpi.getD 300 := by
  refine save_mem k _ _ ?_ g name d
  cases ax with
  | none => exact (gcf_current p).1
  | some f =>
    simp only [reduceCtorEq, false_or] at h
    exact h.symm

/-- **C89 (files, false).**  With axes on a figure that is not the current one, another figure is saved. -/
theorem C89_saved_false (f g : ℕ) (h : f ≠ g) (m : ℕ) (name : String) (hn : name ≠ "") :
    let r := plotWeights (κ := ℕ) (K := ℚ) [(0, 1)] (some f) { filename := some name } ⟨some g, m⟩
    r.1 = f ∧ r.2.2.2 = [.save g name 300] ∧ g ≠ r.1 := by
  refine ⟨rfl, ?_, h.symm⟩
  simp [plotWeights, axes, plotIo, Pyplot.gcf, hn]

/-- A window is opened exactly if asked for. -/
theorem C89_displayed (k : Keywords) (p : Pyplot) : Effect.display ∈ (plotIo k p).2 ↔ k.showfig = true := by
  unfold plotIo
  dsimp only
  cases k.filename with
  | none => by_cases h : k.showfig <;> simp [h]
  | some s => by_cases h : k.showfig <;> by_cases hs : s = "" <;> simp [h, hs]

/-! ### Covariances -/

section
variable {κ : Type} {n : ℕ}

theorem covToCorr_val (S : Matrix (Fin n) (Fin n) ℝ) {i j : Fin n} (hi : 0 < S i i) (hj : 0 < S j j) :
    Risk.covToCorr S i j = some (corr S i j) := by
  unfold Risk.covToCorr corr
  simp only [Matrix.of_apply, hi, hj, and_self, if_true, Matrix.diagonal_mul, Matrix.mul_diagonal, Option.some.injEq]
  have h1 := Real.sqrt_pos.2 hi
  have h2 := Real.sqrt_pos.2 hj
  field_simp

/-- **C89 (covariance, partial).**  `plot_covariance` of a frame labelled alike along rows and columns shows at row `i`
and column `j` the covariance - or, if asked for, the correlation - of assets `i` and `j`, with the names of these assets
beside the row and below the column, in a new figure, and it is this figure that is saved.  Left out are frames whose
columns are labelled differently from their rows, and arrays. -/
theorem C89_covariance_partial (ix : Fin n → κ) (S : Matrix (Fin n) (Fin n) ℝ) (hS : ∀ i, 0 < S i i) (c : Bool)
    (k : Keywords) (p : Pyplot) :
    ∃ f im es p', plotCovariance (.frame ix ix S) c true k p = (.ok (f, im, es), p') ∧
      (∀ i j, im.pixel i j = some (if c then corr S i j else S i j)) ∧ im.Labelled ix ix ∧ f = p.made ∧
      ∀ g name d, Effect.save g name d ∈ es ↔ g = f ∧ k.filename = some name ∧ name ≠ "" ∧ d = k.dpi.getD 300 := by
  refine ⟨_, _, _, _, rfl, fun i j => ?_, ⟨_, _, rfl, fun _ => rfl, fun _ => rfl⟩, rfl, fun g name d => ?_⟩
  · cases c with
    | false => rfl
    | true => simpa [pixels] using covToCorr_val S (hS i) (hS j)
  · exact save_mem k _ _ rfl g name d

/-- **C89 (columns, false).**  The names below the columns are those of the rows: they are wrong as soon as the columns
are labelled differently. -/
theorem C89_columns_false (ix cols : Fin n → κ) (h : ix ≠ cols) (S : Matrix (Fin n) (Fin n) ℝ) (c : Bool) (k : Keywords)
    (p : Pyplot) : ∃ f im es p', plotCovariance (.frame ix cols S) c true k p = (.ok (f, im, es), p') ∧
      ¬ im.Labelled ix cols := by
  refine ⟨_, _, _, _, rfl, ?_⟩
  rintro ⟨below, beside, he, -, hb⟩
  simp only [Option.some.injEq, Prod.mk.injEq] at he
  obtain ⟨rfl, -⟩ := he
  exact h (funext fun j => Sum.inl.inj (hb j))

/-- **C89 (arrays, false).**  The documentation allows arrays; with the default arguments they raise AttributeError, for
every array. -/
theorem C89_array_false (S : Matrix (Fin n) (Fin n) ℝ) (k : Keywords) (p : Pyplot) :
    (plotCovariance (κ := κ) (.array S) false true k p).1 = .error .attribute := rfl

/-- Arrays are drawn if no names are asked for, or correlations. -/
theorem C89_array (S : Matrix (Fin n) (Fin n) ℝ) (hS : ∀ i, 0 < S i i) (c t : Bool) (h : c = true ∨ t = false)
    (k : Keywords) (p : Pyplot) :
    ∃ f im es p', plotCovariance (κ := κ) (.array S) c t k p = (.ok (f, im, es), p') ∧
      (∀ i j, im.pixel i j = some (if c then corr S i j else S i j)) ∧ (im.labels = none ↔ t = false) := by
  have hp : ∀ i j, pixels (κ := κ) c (.array S) i j = some (if c then corr S i j else S i j) := fun i j => by
    cases c with
    | false => rfl
    | true => simpa [pixels] using covToCorr_val S (hS i) (hS j)
  cases t with
  | false => exact ⟨_, _, _, _, rfl, hp, by simp⟩
  | true =>
    have hc : c = true := h.resolve_right (by simp)
    subst hc
    exact ⟨_, _, _, _, rfl, hp, by simp⟩

end

/-! ### Trees -/

section
variable {ι κ : Type} [LinearOrder κ]

/-- What scipy's `linkage` returns is a linkage of the `n` observations it is given. -/
def Sound (n : ℕ) (linkage : Linkage κ) : Prop :=
  ∀ m l d link, linkage m = some l → l d = .ok link → Hrp.ValidLinkage n link

/-- The stored tree, if there is one, is a linkage of the assets. -/
def Stored (n : ℕ) (h : Clustered ι κ) : Prop :=
  h.obj.base.tickers.length = n ∧ ∀ link, h.clusters = some link → Hrp.ValidLinkage n link

theorem objOptimize_tickers (l : (κ → κ → ℝ) → Except PyErr (List (ℕ × ℕ))) (fuel : ℕ) (ok : Bool)
    (o : HrpObj.Obj ι κ) : (o.optimize l fuel ok).1.base.tickers = o.base.tickers ∧
      (o.optimize l fuel ok).1.input = o.input := by
  rcases HrpObj.objOptimize_cases l fuel ok o with ⟨h, -⟩ | ⟨d, h, -⟩
  · rw [h]; exact ⟨rfl, rfl⟩
  · rw [h]; exact ⟨rfl, rfl⟩

theorem optimize_stored {n : ℕ} {linkage : Linkage κ} (hl : Sound n linkage) (fuel : ℕ) (m : String)
    {h : Clustered ι κ} (hs : Stored n h) : Stored n (h.optimize linkage fuel m).1 := by
  refine ⟨by simpa [Clustered.optimize, objOptimize_tickers] using hs.1, fun link hlink => ?_⟩
  have e : h.linked linkage m = some link := hlink
  unfold Clustered.linked at e
  cases hm : linkage m with
  | none => simp only [hm] at e; exact hs.2 link e
  | some l =>
    cases hi : h.obj.input with
    | none => simp only [hm, hi] at e; exact hs.2 link e
    | some inp =>
      simp only [hm, hi] at e
      cases hd : l (Hrp.distance inp.corrUsed) with
      | error x => simp only [hd] at e; exact hs.2 link e
      | ok link' =>
        simp only [hd, Option.some.injEq] at e
        subst e
        exact hl m l _ _ hm hd

theorem setWeights_stored {n : ℕ} {h : Clustered ι κ} (hs : Stored n h) (d : Dict κ ℝ) :
    Stored n (h.setWeights d).1 := by
  refine ⟨?_, hs.2⟩
  have : (h.setWeights d).1.obj.base.tickers = h.obj.base.tickers := by
    rcases HrpObj.setWeights_cases h.obj.base d with ⟨e, g⟩ | ⟨g, -⟩ <;>
      simp [Clustered.setWeights, HrpObj.Obj.setWeights, g]
  rw [this, hs.1]

/-- The object after `plot_dendrogram`: as it was if it has been clustered, otherwise as `optimize()` leaves it. -/
theorem plot_object (linkage : Linkage κ) (fuel : ℕ) (b : Bool) (h : Clustered ι κ) :
    (plotDendrogram linkage fuel b h).1 =
      match h.clusters with
      | some _ => h
      | none => (h.optimize linkage fuel "single").1 := by
  unfold plotDendrogram
  dsimp only
  cases hc : h.clusters with
  | some _ => rfl
  | none =>
    dsimp only
    generalize h.optimize linkage fuel "single" = r
    obtain ⟨h', r⟩ := r
    match r with
    | none => rfl
    | some (.error _) => rfl
    | some (.ok _) => rfl

theorem after_stored {n : ℕ} {linkage : Linkage κ} (hl : Sound n linkage) (fuel : ℕ) :
    ∀ (cs : List (Call κ)) {h : Clustered ι κ}, Stored n h → Stored n (after linkage fuel h cs)
  | [], _, hs => hs
  | .optimize m :: cs, _, hs => after_stored hl fuel cs (optimize_stored hl fuel m hs)
  | .setWeights d :: cs, _, hs => after_stored hl fuel cs (setWeights_stored hs d)
  | .plot b :: cs, h, hs => by
    refine after_stored hl fuel cs ?_
    rw [plot_object]
    cases h.clusters with
    | some _ => exact hs
    | none => exact optimize_stored hl fuel _ hs

theorem after_data (linkage : Linkage κ) (fuel : ℕ) : ∀ (cs : List (Call κ)) (h : Clustered ι κ),
    (after linkage fuel h cs).obj.base.tickers = h.obj.base.tickers
  | [], _ => rfl
  | .optimize m :: cs, h => by
    rw [after, after_data linkage fuel cs]
    exact (objOptimize_tickers _ _ _ _).1
  | .setWeights d :: cs, h => by
    rw [after, after_data linkage fuel cs]
    rcases HrpObj.setWeights_cases h.obj.base d with ⟨e, g⟩ | ⟨g, -⟩ <;>
      simp [Clustered.setWeights, HrpObj.Obj.setWeights, g]
  | .plot b :: cs, h => by
    rw [after, after_data linkage fuel cs, plot_object]
    cases h.clusters with
    | some _ => rfl
    | none => exact (objOptimize_tickers _ _ _ _).1

theorem dendrogram_valid {n : ℕ} {link : List (ℕ × ℕ)} (hv : Hrp.ValidLinkage n link) (ts : List κ)
    (ht : ts.length = n) : ∃ ix, Hrp.quasiDiag n link = .ok ix ∧ ix.Perm (List.range n) ∧
      dendrogram link (some ts) = .ok (ix.map fun i => (i, ts[i]?)) ∧
      dendrogram (κ := κ) link none = .ok (ix.map fun i => (i, none)) := by
  obtain ⟨ix, h1, h2⟩ := Hrp.quasiDiag_perm hv
  have hn : link.length + 1 = n := by have := hv.len; have := hv.two; omega
  refine ⟨ix, h1, h2, ?_, ?_⟩
  · simp [dendrogram, hn, ht, h1, Except.map]
  · simp [dendrogram, hn, h1, Except.map]

/-- What `plot_dendrogram` draws, given the tree that is stored afterwards. -/
theorem plot_draws {n : ℕ} {linkage : Linkage κ} (hl : Sound n linkage) (fuel : ℕ) (b : Bool) {h h' : Clustered ι κ}
    (hs : Stored n h) {foot : List (ℕ × Option κ)} (hp : plotDendrogram linkage fuel b h = (h', some (.ok foot))) :
    ∃ link ix, h'.clusters = some link ∧ Hrp.quasiDiag n link = .ok ix ∧ ix.Perm (List.range n) ∧
      h'.obj.base.tickers = h.obj.base.tickers ∧
      foot = ix.map fun i => (i, if b then h.obj.base.tickers[i]? else none) := by
  have ho := plot_object linkage fuel b h
  have hs' : Stored n h' := by
    have : h' = (plotDendrogram linkage fuel b h).1 := by rw [hp]
    rw [this, ho]
    cases h.clusters with
    | some _ => exact hs
    | none => exact optimize_stored hl fuel _ hs
  have ht : h'.obj.base.tickers = h.obj.base.tickers := by
    have : h' = (plotDendrogram linkage fuel b h).1 := by rw [hp]
    rw [this, ho]
    cases h.clusters with
    | some _ => rfl
    | none => exact (objOptimize_tickers _ _ _ _).1
  have hd : (match h'.clusters with
      | none => .error .typeError
      | some link => dendrogram link (if b then some h'.obj.base.tickers else none)) = Except.ok foot := by
    unfold plotDendrogram at hp
    dsimp only at hp
    cases hc : h.clusters with
    | some link =>
      simp only [hc, Prod.mk.injEq, Option.some.injEq] at hp
      obtain ⟨rfl, hp⟩ := hp
      simpa only [hc] using hp
    | none =>
      simp only [hc] at hp
      revert hp
      generalize h.optimize linkage fuel "single" = r
      obtain ⟨h₂, r⟩ := r
      match r with
      | none => intro hp; simp at hp
      | some (.error _) => intro hp; simp at hp
      | some (.ok _) =>
        intro hp
        simp only [Prod.mk.injEq, Option.some.injEq] at hp
        obtain ⟨rfl, hp⟩ := hp
        exact hp
  cases hc : h'.clusters with
  | none => simp [hc] at hd
  | some link =>
    simp only [hc] at hd
    obtain ⟨ix, h1, h2, h3, h4⟩ := dendrogram_valid (hs'.2 link hc) h'.obj.base.tickers hs'.1
    refine ⟨link, ix, rfl, h1, h2, ht, ?_⟩
    cases b with
    | false =>
      simp only [Bool.false_eq_true, if_false, h4, Except.ok.injEq] at hd
      rw [← hd]; simp
    | true =>
      simp only [if_true, h3, Except.ok.injEq] at hd
      rw [← hd, ht]; simp

/-- **C89 (tree).**  After any calls on an object, at the foot of the tree drawn by `plot_dendrogram` each asset stands
once, under its own name. -/
theorem C89_tree {linkage : Linkage κ} (fuel : ℕ) (o : HrpObj.Obj ι κ) (hl : Sound o.base.tickers.length linkage)
    (cs : List (Call κ)) {h' : Clustered ι κ} {foot : List (ℕ × Option κ)}
    (hp : plotDendrogram linkage fuel true (after linkage fuel ⟨o, none⟩ cs) = (h', some (.ok foot))) :
    (foot.map Prod.fst).Perm (List.range o.base.tickers.length) ∧
    (∀ x ∈ foot, ∃ t, x.2 = some t ∧ o.base.tickers[x.1]? = some t) ∧
    (foot.map Prod.snd).Perm (o.base.tickers.map some) := by
  have hs := after_stored hl fuel cs (h := ⟨o, none⟩) ⟨rfl, fun _ h => by simp at h⟩
  obtain ⟨link, ix, -, -, hperm, -, rfl⟩ := plot_draws hl fuel true hs hp
  rw [after_data]
  have hfst : (ix.map fun i => (i, if true = true then o.base.tickers[i]? else none)).map Prod.fst = ix := by
    simp [Function.comp_def]
  refine ⟨by rw [hfst]; exact hperm, fun x hx => ?_, ?_⟩
  · obtain ⟨i, hi, rfl⟩ := List.mem_map.1 hx
    have hlt := List.mem_range.1 (hperm.mem_iff.1 hi)
    exact ⟨o.base.tickers[i], by simp [hlt], by simp [hlt]⟩
  · have : (ix.map fun i => (i, if true = true then o.base.tickers[i]? else none)).map Prod.snd =
        ix.map fun i => o.base.tickers[i]? := by simp [Function.comp_def]
    rw [this]
    refine (hperm.map _).trans (List.Perm.of_eq ?_)
    apply List.ext_getElem <;> simp

/-- **C89 (tree, object).**  Drawing the tree of an object that has been optimised leaves the object as it is, also its
weights. -/
theorem C89_tree_keeps (linkage : Linkage κ) (fuel : ℕ) (b : Bool) (h : Clustered ι κ) (hc : h.clusters ≠ none) :
    (plotDendrogram linkage fuel b h).1 = h := by
  rw [plot_object]
  cases e : h.clusters with
  | none => exact absurd e hc
  | some _ => rfl

/-- **C89 (tree, not optimised).**  Drawing the tree of an object that has not been optimised leaves it as `optimize()`
does, and raises what `optimize()` raises; weights given with `set_weights` are replaced. -/
theorem C89_tree_optimises (linkage : Linkage κ) (fuel : ℕ) (b : Bool) (h : Clustered ι κ) (hc : h.clusters = none) :
    (plotDendrogram linkage fuel b h).1 = (h.optimize linkage fuel "single").1 ∧
    ∀ e, (h.optimize linkage fuel "single").2 = some (.error e) →
      (plotDendrogram linkage fuel b h).2 = some (.error e) := by
  refine ⟨by rw [plot_object, hc], fun e he => ?_⟩
  unfold plotDendrogram
  dsimp only
  rw [hc]
  dsimp only
  revert he
  generalize h.optimize linkage fuel "single" = r
  obtain ⟨h', r⟩ := r
  rintro rfl
  rfl

theorem mapM_some {α β : Type} (g : α → Option β) : ∀ (l : List α) {r : List β}, l.mapM g = some r → l.map g = r.map some
  | [], r, h => by
    simp only [List.mapM_nil, Option.pure_def, Option.some.injEq] at h
    rw [← h]; rfl
  | a :: l, r, h => by
    simp only [List.mapM_cons, Option.pure_def, Option.bind_eq_bind] at h
    cases e : g a with
    | none => simp [e] at h
    | some t =>
      cases e' : l.mapM g with
      | none => simp [e, e'] at h
      | some ts =>
        simp only [e, e', Option.bind_some, Option.some.injEq] at h
        subst h
        rw [List.map_cons, List.map_cons, e, mapM_some g l e']

/-- How `optimize` comes to a result. -/
theorem optimize_inv {l : (κ → κ → ℝ) → Except PyErr (List (ℕ × ℕ))} {fuel : ℕ} {o o' : HrpObj.Obj ι κ} {ok : Bool}
    {w : Dict κ ℝ} (h : o.optimize l fuel ok = (o', some (.ok w))) :
    ok = true ∧ ∃ inp link ix ordered raw, o.input = some inp ∧ l (Hrp.distance inp.corrUsed) = .ok link ∧
      Hrp.quasiDiag o.base.tickers.length link = .ok ix ∧ ix.mapM (fun i => o.base.tickers[i]?) = some ordered ∧
      Hrp.rawAllocation fuel inp.covUsed ordered = some raw ∧ w = Dict.ofPairs (Hrp.sortIndex raw) := by
  unfold HrpObj.Obj.optimize at h
  cases ok with
  | false => simp at h
  | true =>
    refine ⟨rfl, ?_⟩
    simp only [Bool.not_true, Bool.false_eq_true, if_false] at h
    cases hi : o.input with
    | none => simp [hi] at h
    | some inp =>
      simp only [hi, Prod.mk.injEq] at h
      have h := h.2
      unfold Hrp.optimize at h
      simp only [Bool.not_true, Bool.false_eq_true, if_false] at h
      cases hl : l (Hrp.distance inp.corrUsed) with
      | error e => simp [hl] at h
      | ok link =>
        simp only [hl] at h
        cases hq : Hrp.quasiDiag o.base.tickers.length link with
        | error e => simp [hq] at h
        | ok ix =>
          simp only [hq] at h
          cases hm : ix.mapM (fun i => o.base.tickers[i]?) with
          | none => simp [hm] at h
          | some ordered =>
            simp only [hm] at h
            cases hr : Hrp.rawAllocation fuel inp.covUsed ordered with
            | none => simp [hr] at h
            | some raw =>
              simp only [hr] at h
              refine ⟨inp, link, ix, ordered, raw, rfl, hl, hq, hm, hr, ?_⟩
              revert h
              generalize Base.setWeights o.base (Dict.ofPairs (Hrp.sortIndex raw)) = q
              obtain ⟨q, r⟩ := q
              cases r with
              | error e => intro h; simp at h
              | ok u => intro h; simpa using h.symm

/-- **C89 (tree, weights).**  The tree drawn after `optimize` is the one the weights come from: they are the recursive
bisection of the assets in the order in which they stand at its foot. -/
theorem C89_tree_weights {linkage : Linkage κ} (fuel : ℕ) (m : String) {h h' : Clustered ι κ}
    (hl : Sound h.obj.base.tickers.length linkage) (hs : Stored h.obj.base.tickers.length h) {w : Dict κ ℝ}
    (ho : h.optimize linkage fuel m = (h', some (.ok w))) :
    ∃ foot inp raw names, plotDendrogram linkage fuel true h' = (h', some (.ok foot)) ∧ h.obj.input = some inp ∧
      foot.map Prod.snd = names.map some ∧ Hrp.rawAllocation fuel inp.covUsed names = some raw ∧
      w = Dict.ofPairs (Hrp.sortIndex raw) := by
  have ho1 := congrArg Prod.fst ho
  have ho2 := congrArg Prod.snd ho
  simp only [Clustered.optimize] at ho1 ho2
  obtain ⟨hk, inp, link, ix, ordered, raw, hi, hd, hq, hm, hr, hw⟩ := optimize_inv (Prod.ext rfl ho2)
  cases hL : linkage m with
  | none => simp [hL] at hk
  | some l =>
    rw [hL, Option.getD_some] at hd
    have hc : h'.clusters = some link := by
      rw [← ho1]
      simp [Clustered.linked, hL, hi, hd]
    have ht : h'.obj.base.tickers = h.obj.base.tickers := by
      rw [← ho1]
      exact (objOptimize_tickers _ _ _ _).1
    obtain ⟨ix', h1, h2, h3, -⟩ := dendrogram_valid (hl m l _ _ hL hd) h.obj.base.tickers rfl
    have : ix' = ix := by rw [hq] at h1; exact (Except.ok.inj h1).symm
    subst this
    refine ⟨ix'.map fun i => (i, h.obj.base.tickers[i]?), inp, raw, ordered, ?_, hi, ?_, hr, hw⟩
    · simp [plotDendrogram, hc, ht, h3]
    · rw [List.map_map]
      show ix'.map (fun i => h.obj.base.tickers[i]?) = ordered.map some
      exact mapM_some _ _ hm

end

/-! ### Assets -/

section
variable {κ K : Type} [Field K] [LinearOrder K]

theorem drawAssets_val {n : ℕ} (ts : List κ) (ht : ts.length = n) (m : List ℝ) (hm : m.length = n)
    (rows : List (List ℝ)) (hr : rows.length = n) (b : Bool) :
    ∃ points texts, drawAssets ts (some m) (.two ⟨n, rows⟩) b = .ok (points, texts) ∧ points.length = n ∧
      (∀ i, i < n → points[i]? = some (Perf.fsqrt ((rows.getD i []).getD i 0), m.getD i 0)) ∧
      (b = false → texts = []) ∧ (b = true → texts = ts.zip points) := by
  have hl : (diagRoots ⟨n, rows⟩).length = n := by simp [diagRoots, hr]
  have hz : ((diagRoots ⟨n, rows⟩).zip m).length = n := by simp [hl, hm]
  have hv : ∀ i, i < n → ((diagRoots ⟨n, rows⟩).zip m)[i]? =
      some (Perf.fsqrt ((rows.getD i []).getD i 0), m.getD i 0) := by
    intro i hi
    rw [List.getElem?_eq_getElem (by omega)]
    simp [diagRoots, hi, hm]
  cases b with
  | false =>
    exact ⟨_, [], by simp [drawAssets, hl, hm], hz, hv, fun _ => rfl, by simp⟩
  | true =>
    refine ⟨_, ts.zip ((diagRoots ⟨n, rows⟩).zip m), ?_, hz, hv, by simp, fun _ => rfl⟩
    have : ¬ ((diagRoots ⟨n, rows⟩).zip m).length < ts.length := by omega
    simp only [drawAssets, hl, hm, ne_eq, not_true, if_false, this, if_true]

/-- **C89 (assets).**  In the plot of an `EfficientFrontier` object with expected returns each asset is drawn at the
square root of its variance and at its expected return, and its name, if asked for, is written at this point. -/
theorem C89_assets {big : K} {natKey : ℕ → κ} {mu : Init.MuArg κ ℝ} {cov : Init.CovArg κ ℝ} {wb : Base.BoundsArg K}
    {o : Init.Obj κ ℝ K} (h : Init.initEf big natKey mu cov wb = .ok o) {n k r : ℕ} {m : List ℝ}
    {rows : List (List ℝ)} (hm : Init.Means mu n m) (hc : Init.Mat cov r k rows) (b : Bool) :
    ∃ points texts, drawAssets o.tickers o.mu o.cov b = .ok (points, texts) ∧ points.length = n ∧
      (∀ i, i < n → points[i]? = some (Perf.fsqrt ((rows.getD i []).getD i 0), m.getD i 0)) ∧
      o.tickers.length = n ∧ texts = if b then o.tickers.zip points else [] := by
  obtain ⟨c, m', n', h1, h2, h3, h4, h5, h6, h7, -⟩ := Init.initEf_ok h
  rw [hm.validMu, Except.ok.injEq] at h2
  rw [hc.validCov, Except.ok.injEq] at h1
  subst h1 h2
  rw [Init.numAssets, hm.muLen, Except.ok.injEq] at h3
  subst h3
  have h4 := h4 rfl
  simp only [Init.Stored.shape, List.cons.injEq, and_true] at h4
  obtain ⟨hr, rfl⟩ := h4
  have ht : o.tickers.length = k := by
    rw [h5]
    exact Init.labels_length natKey hm.series_length hc.width
  obtain ⟨p, t, e1, e2, e3, e4, e5⟩ := drawAssets_val o.tickers ht m hm.length rows hr b
  refine ⟨p, t, by rw [h6, h7, e1], e2, e3, ht, ?_⟩
  cases b with
  | false => simpa using e4 rfl
  | true => simpa using e5 rfl

/-- **C89 (assets, false).**  In the plot of an `EfficientSemivariance` object every asset is drawn at risk 0, whatever
its returns have been. -/
theorem C89_assets_false {big : K} {natKey : ℕ → κ} {mu : Init.MuArg κ ℝ} {R : Init.RetArg κ ℝ}
    {beta : Base.Flt K} {wb : Base.BoundsArg K} {o : Init.TailObj κ ℝ K}
    (h : Init.initTail big natKey 0 .semi mu R beta wb = .ok o) {n k : ℕ} {m : List ℝ}
    {rows : List (List (Option ℝ))} (hm : Init.Means mu n m) (hR : Init.Table R k rows) (b : Bool) :
    ∃ points texts, drawAssets o.base.tickers o.base.mu o.base.cov b = .ok (points, texts) ∧ points.length = n ∧
      ∀ i, i < n → points[i]? = some (.fin 0, m.getD i 0) := by
  obtain ⟨k', h1, h2, -, -⟩ := Init.initTail_ok h
  have hk : k' = k := by
    have : Init.retWidth R = .ok k' := h1
    rw [hR.retWidth, Except.ok.injEq] at this
    exact this.symm
  subst hk
  have hc : Init.Mat (Init.zeros (κ := κ) (0 : ℝ) k') k' k' (List.replicate k' (List.replicate k' 0)) := by
    have := Init.Mat.array (κ := κ) ⟨k', List.replicate k' (List.replicate k' (0 : ℝ))⟩ (by
      intro x hx
      rw [List.eq_of_mem_replicate hx, List.length_replicate])
    rwa [List.length_replicate] at this
  obtain ⟨p, t, e1, e2, e3, -⟩ := C89_assets h2 hm hc b
  refine ⟨p, t, e1, e2, fun i hi => ?_⟩
  rw [e3 i hi]
  have : ((List.replicate k' (List.replicate k' (0 : ℝ))).getD i []).getD i 0 = 0 := by
    simp only [List.getD_eq_getElem?_getD, List.getElem?_replicate]
    by_cases h : i < k' <;> simp [h]
  rw [this]
  simp [Perf.fsqrt]

end

/-! ### Cases -/

/-- Four weights, one short and two alike: heaviest on top, those alike in their order in the portfolio. -/
example : (weightBars (κ := ℕ) (K := ℚ) [(7, 1 / 4), (2, -1 / 4), (5, 3 / 4), (1, 1 / 4)]).labels = [5, 7, 1, 2] := by
  decide +kernel

/-- The premises of `C89_saved_partial`: no axes and no figure yet, or axes on the current figure. -/
example : (plotWeights (κ := ℕ) (K := ℚ) [(0, 1)] none { filename := some "w.png" } ⟨none, 0⟩).2.2.2 =
    [.save 0 "w.png" 300] := by decide
example : (plotWeights (κ := ℕ) (K := ℚ) [(0, 1)] (some 3) { filename := some "w.png", dpi := some 72 } ⟨some 3, 9⟩).2.2.2 =
    [.save 3 "w.png" 72] := by decide

/-- The premise of `C89_covariance_partial`. -/
example : ∀ i : Fin 2, 0 < (!![4, -1; -1, 9] : Matrix (Fin 2) (Fin 2) ℝ) i i := by
  intro i; fin_cases i <;> norm_num

/-- Rows and columns of one frame in different order, as `C89_columns_false` supposes. -/
example : (![10, 20] : Fin 2 → ℕ) ≠ ![20, 10] := by decide

/-- scipy's clustering of two observations, whatever the method. -/
def pairLinkage : Linkage ℕ := fun m => if m = "single" ∨ m = "ward" then some fun _ => .ok [(0, 1)] else none

theorem pairLinkage_sound : Sound 2 pairLinkage := by
  intro m l d link hm hl
  unfold pairLinkage at hm
  split at hm
  · rw [Option.some.injEq] at hm
    subst hm
    rw [Except.ok.injEq] at hl
    subst hl
    exact ⟨by decide, rfl, by decide, by decide⟩
  · cases hm

/-- Two assets by their covariance. -/
noncomputable def two : HrpObj.Obj ℕ ℕ :=
  { returns := none, cov := .frame [7, 3] [[1, 0], [0, 3]], base := { tickers := [7, 3], weights := none } }

theorem two_optimised : ∃ h' w, (⟨two, none⟩ : Clustered ℕ ℕ).optimize pairLinkage 4 "ward" = (h', some (.ok w)) := by
  obtain ⟨o', w, h, -⟩ := Hrp.C14_optimize (fun _ => .ok [(0, 1)]) two.base (.cov (HrpObj.loc [7, 3] [[1, 0], [0, 3]]))
    (by decide) [(0, 1)] rfl ⟨by decide, rfl, by decide, by decide⟩ (by
      rintro x ⟨t, ht, hx⟩
      have i7 : List.idxOf 7 [7, 3] = 0 := by decide
      have i3 : List.idxOf 3 [7, 3] = 1 := by decide
      simp only [two, Hrp.Input.covUsed, HrpObj.loc, List.map_cons, List.map_nil, List.sum_cons, List.sum_nil, i7, i3]
      norm_num
      have ht : t ∈ [7, 3] := ht
      simp only [List.mem_cons, List.not_mem_nil, or_false] at ht
      rcases ht with rfl | rfl
      · nlinarith [mul_self_pos.2 hx, mul_self_nonneg (x 3)]
      · nlinarith [mul_self_pos.2 hx, mul_self_nonneg (x 7)]) 4 (by decide)
  refine ⟨⟨{ two with base := o' }, some [(0, 1)]⟩, w, ?_⟩
  have e : pairLinkage "ward" = some fun _ => .ok [(0, 1)] := by simp [pairLinkage]
  simp only [Clustered.optimize, Clustered.linked, e, Option.getD_some, Option.isSome_some, HrpObj.Obj.optimize,
    HrpObj.Obj.input, two, Bool.not_true, Bool.false_eq_true, if_false]
  simp only [two] at h
  rw [h]

/-- The premises of the theorems on trees: the object can be optimised, also after a method scipy does not know has been
refused, and then its tree is drawn. -/
example : ∃ h' foot, plotDendrogram pairLinkage 4 true
    (after pairLinkage 4 ⟨two, none⟩ [.optimize "best", .optimize "ward"]) = (h', some (.ok foot)) := by
  obtain ⟨h', w, h⟩ := two_optimised
  have e : after pairLinkage 4 (⟨two, none⟩ : Clustered ℕ ℕ) [.optimize "best", .optimize "ward"] = h' := by
    have : (⟨two, none⟩ : Clustered ℕ ℕ).optimize pairLinkage 4 "best" = (⟨two, none⟩, some (.error .valueError)) := by
      simp [Clustered.optimize, Clustered.linked, HrpObj.Obj.optimize, pairLinkage]
    simp only [after, this, h]
  obtain ⟨foot, -, -, -, hp, -⟩ := C89_tree_weights (h := ⟨two, none⟩) 4 "ward" pairLinkage_sound ⟨rfl, fun _ h => by simp at h⟩ h
  exact ⟨h', foot, by rw [e, hp]⟩

/-- The premises of `C89_assets_false`: a semivariance object for two assets, one of which lost money on a day. -/
example (big : ℚ) : ∃ (o : Init.TailObj String ℝ ℚ) (points : _) (texts : _), Init.initTail big (fun _ => "") 0 .semi
    (.series [("A", 1), ("B", 2)]) (.frame ["A", "B"] [[some (-1), some 2], [some 4, some 5]]) (.fin 0)
    (Init.unit ℚ) = .ok o ∧ drawAssets o.base.tickers o.base.mu o.base.cov true = .ok (points, texts) ∧
    points[0]? = some (.fin 0, 1) := by
  have ht : Init.Table (κ := String) (.frame ["A", "B"] [[some (-1 : ℝ), some 2], [some 4, some 5]]) 2 _ :=
    Init.Table.frame _ _ (by simp)
  have hm := Init.Means.series (κ := String) [("A", (1 : ℝ)), ("B", 2)]
  obtain ⟨o, h⟩ := (Init.C64_agree big (fun _ => "") (0 : ℝ) .semi hm ht (.fin 0) (Init.unit ℚ)).2
    ⟨rfl, ⟨_, Init.mapBounds_unit big 2⟩, fun h => absurd rfl h⟩
  obtain ⟨p, t, h1, -, h3⟩ := C89_assets_false h hm ht true
  exact ⟨o, p, t, h, h1, by simpa using h3 0 (by decide)⟩

end Verif.Charts
