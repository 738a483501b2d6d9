import Verif.Model.Discrete
import Verif.Model.HrpObj
import Verif.Model.Init
import Verif.Model.Risk

/-!
Model of the charts in plotting.py other than the lines of `plot_efficient_frontier` (`Model/Plot`, `Model/ClaObj`):
which numbers go where, with which labels, on which figure, and which figure is saved.

Colours, axis titles, layout and interactive (plotly) charts are not modelled, nor is NaN among the weights.  A figure is
a number, a set of axes is known by its figure.
-/

namespace Verif.Charts
open Verif.Py

/-! ### Figures -/

/-- pyplot's state: the current figure, and how many figures have been made. -/
structure Pyplot where
  current : Option ℕ
  made : ℕ

/-- `plt.figure()`, as `plt.subplots()` calls it: a new figure becomes the current one. -/
def Pyplot.figure (p : Pyplot) : ℕ × Pyplot := (p.made, ⟨some p.made, p.made + 1⟩)

/-- `plt.gcf()`: the current figure, a new one if there is none. -/
def Pyplot.gcf (p : Pyplot) : ℕ × Pyplot :=
  match p.current with
  | some f => (f, p)
  | none => p.figure

/-- `ax = ax or plt.gca()` (plotting.py:113, 344, 396): the figure drawn on. -/
def axes (ax : Option ℕ) (p : Pyplot) : ℕ × Pyplot :=
  match ax with
  | some f => (f, p)
  | none => p.gcf

/-- The keyword arguments of `_plot_io`, `none` where one is left out or `None`. -/
structure Keywords where
  filename : Option String := none
  dpi : Option ℕ := none
  showfig : Bool := false

/-- What leaves the program. -/
inductive Effect
  | save (figure : ℕ) (file : String) (dpi : ℕ)
  | display
  deriving DecidableEq

/-- `_plot_io` (plotting.py:38-57).  `plt.tight_layout` and `plt.savefig` work on the current figure. -/
def plotIo (k : Keywords) (p : Pyplot) : Pyplot × List Effect :=
  let (f, p) := p.gcf
  let saved := match k.filename with
    | none => []
    | some name => if name = "" then [] else [Effect.save f name (k.dpi.getD 300)]
  (p, saved ++ if k.showfig then [.display] else [])

/-! ### `plot_weights` -/

/-- A horizontal bar chart: bar `vals[i]` at height `pos[i]`, text `labels[i]` at height `ticks[i]`; `inverted` if heights
grow downwards. -/
structure Bars (κ K : Type) where
  pos : List ℕ
  vals : List K
  ticks : List ℕ
  labels : List κ
  inverted : Bool

section
variable {κ K : Type} [DecidableEq κ] [Field K] [LinearOrder K] [IsStrictOrderedRing K] [FloorRing K]

/-- The chart of `plot_weights` (plotting.py:398-408). -/
def weightBars (weights : Dict κ K) : Bars κ K :=
  let desc := Discrete.sortDesc weights
  let labels := desc.map Prod.fst
  let y := List.range labels.length
  ⟨y, desc.map Prod.snd, y, labels, true⟩

/-- `plot_weights` (plotting.py:385-411): the figure drawn on, the chart, and what leaves the program. -/
def plotWeights (weights : Dict κ K) (ax : Option ℕ) (k : Keywords) (p : Pyplot) :
    ℕ × Bars κ K × Pyplot × List Effect :=
  let (f, p) := axes ax p
  (f, weightBars weights, plotIo k p)

end

/-! ### `plot_covariance` -/

/-- The `cov_matrix` argument of `plot_covariance`, square. -/
inductive Mat (κ : Type) (n : ℕ)
  | frame (index cols : Fin n → κ) (S : Matrix (Fin n) (Fin n) ℝ)
  | array (S : Matrix (Fin n) (Fin n) ℝ)

/-- An image with, if asked for, a text below each column and beside each row.  A label is one of the frame's or an
integer. -/
structure Image (κ : Type) (n : ℕ) where
  pixel : Matrix (Fin n) (Fin n) (Option ℝ)
  labels : Option ((Fin n → κ ⊕ ℕ) × (Fin n → κ ⊕ ℕ))

/-- `matrix.index` (plotting.py:87, 89); `none` for an array, which has none.  `cov_to_corr` makes a frame of an array
(risk_models.py:329-331), labelled by position. -/
def indexOf {κ : Type} {n : ℕ} (correlation : Bool) : Mat κ n → Option (Fin n → κ ⊕ ℕ)
  | .frame index _ _ => some fun i => .inl (index i)
  | .array _ => if correlation then some fun i => .inr i else none

/-- The numbers drawn (plotting.py:76-79). -/
noncomputable def pixels {κ : Type} {n : ℕ} (correlation : Bool) : Mat κ n → Matrix (Fin n) (Fin n) (Option ℝ)
  | .frame _ _ S | .array S => if correlation then Risk.covToCorr S else fun i j => some (S i j)

/-- `plot_covariance` (plotting.py:60-94). -/
noncomputable def plotCovariance {κ : Type} {n : ℕ} (m : Mat κ n) (correlation showTickers : Bool) (k : Keywords)
    (p : Pyplot) : Except PyErr (ℕ × Image κ n × List Effect) × Pyplot :=
  let (f, p) := p.figure
  if showTickers then
    match indexOf correlation m with
    | none => (.error .attribute, p)
    | some ix =>
      let r := plotIo k p
      (.ok (f, ⟨pixels correlation m, some (ix, ix)⟩, r.2), r.1)
  else
    let r := plotIo k p
    (.ok (f, ⟨pixels correlation m, none⟩, r.2), r.1)

/-! ### `plot_dendrogram` -/

section
variable {ι κ : Type}

/-- An `HRPOpt` object with its `clusters` (hierarchical_portfolio.py:69). -/
structure Clustered (ι κ : Type) where
  obj : HrpObj.Obj ι κ
  clusters : Option (List (ℕ × ℕ))

/-- scipy's `linkage` by method; a method scipy does not know is `none`. -/
abbrev Linkage (κ : Type) := String → Option ((κ → κ → ℝ) → Except PyErr (List (ℕ × ℕ)))

variable [LinearOrder κ]

/-- `self.clusters` after `optimize` (hierarchical_portfolio.py:152-168): stored as soon as `linkage` has returned. -/
noncomputable def Clustered.linked (linkage : Linkage κ) (method : String) (h : Clustered ι κ) : Option (List (ℕ × ℕ)) :=
  match linkage method, h.obj.input with
  | some l, some inp =>
    match l (Hrp.distance inp.corrUsed) with
    | .ok link => some link
    | .error _ => h.clusters
  | _, _ => h.clusters

/-- `HRPOpt.optimize` (hierarchical_portfolio.py:142-174) on an object with its clusters, see `HrpObj.Obj.optimize`. -/
noncomputable def Clustered.optimize (linkage : Linkage κ) (fuel : ℕ) (method : String) (h : Clustered ι κ) :
    Clustered ι κ × Option (Except PyErr (Dict κ ℝ)) :=
  let r := h.obj.optimize ((linkage method).getD fun _ => .error .valueError) fuel (linkage method).isSome
  (⟨r.1, h.linked linkage method⟩, r.2)

/-- The inherited `set_weights` (base_optimizer.py:70-77). -/
def Clustered.setWeights (h : Clustered ι κ) (d : Dict κ ℝ) : Clustered ι κ × Except PyErr Unit :=
  let r := h.obj.setWeights d
  (⟨r.1, h.clusters⟩, r.2)

/-- `sch.dendrogram(clusters, labels=…)` (plotting.py:123, 127): the observations at the foot of the tree, from left to
right, each with its label.  scipy refuses labels whose number is not that of the observations. -/
def dendrogram (link : List (ℕ × ℕ)) (labels : Option (List κ)) : Except PyErr (List (ℕ × Option κ)) :=
  match labels with
  | none => (Hrp.quasiDiag (link.length + 1) link).map fun ix => ix.map fun i => (i, none)
  | some l =>
    if l.length ≠ link.length + 1 then .error .valueError
    else (Hrp.quasiDiag (link.length + 1) link).map fun ix => ix.map fun i => (i, l[i]?)

/-- The foot of the tree drawn by `plot_dendrogram` (plotting.py:115-127).  `none` = outside the model (NaN in the data,
or out of fuel), as in `HrpObj.Obj.optimize`. -/
noncomputable def plotDendrogram (linkage : Linkage κ) (fuel : ℕ) (showTickers : Bool) (h : Clustered ι κ) :
    Clustered ι κ × Option (Except PyErr (List (ℕ × Option κ))) :=
  let draw (h : Clustered ι κ) : Except PyErr (List (ℕ × Option κ)) :=
    match h.clusters with
    | none => .error .typeError
    | some link => dendrogram link (if showTickers then some h.obj.base.tickers else none)
  match h.clusters with
  | some _ => (h, some (draw h))
  | none =>
    match h.optimize linkage fuel "single" with
    | (h', none) => (h', none)
    | (h', some (.error e)) => (h', some (.error e))
    | (h', some (.ok _)) => (h', some (draw h'))

end

/-! ### The assets in `plot_efficient_frontier` -/

/-- `np.sqrt(np.diag(cov))`. -/
noncomputable def diagRoots (a : Init.Arr ℝ) : List (Base.Flt ℝ) :=
  (List.range (min a.rows.length a.width)).map fun i => Perf.fsqrt ((a.rows.getD i []).getD i 0)

/-- The assets in `_plot_ef` and `_plot_cla` (plotting.py:181-210, 275-297): the points, and the texts with the points
they are written at.  Without expected returns, or with a one-dimensional covariance, matplotlib refuses the two lists,
unless there is a single asset, which is left out here. -/
noncomputable def drawAssets {κ : Type} (tickers : List κ) (mu : Option (List ℝ)) (cov : Init.Stored ℝ)
    (showTickers : Bool) : Except PyErr (List (Base.Flt ℝ × ℝ) × List (κ × Base.Flt ℝ × ℝ)) :=
  match mu, cov with
  | some mu, .two a =>
    let sigma := diagRoots a
    if sigma.length ≠ mu.length then .error .valueError
    else
      let points := sigma.zip mu
      if showTickers then
        if points.length < tickers.length then .error .indexError
        else .ok (points, tickers.zip points)
      else .ok (points, [])
  | _, _ => .error .valueError

end Verif.Charts
