import Verif.Model.Init

/-!
What a freshly constructed optimizer should look like, in terms of the arguments alone.
-/

namespace Verif.Init
open Verif.Py Verif.Base

variable {κ V K : Type}

/-- Everything on the object is about the same `n` assets. -/
structure WellSized (n : ℕ) (o : Obj κ V K) : Prop where
  tickers : o.tickers.length = n
  mu : ∀ m, o.mu = some m → m.length = n
  cov : ∃ a, o.cov = .two a ∧ a.width = n ∧ a.rows.length = n ∧ ∀ r ∈ a.rows, r.length = n
  bounds : o.bounds.1.length = n ∧ o.bounds.2.length = n

/-- The number a labelled series gives for a label. -/
def lookup [DecidableEq κ] (s : List (κ × V)) (t : κ) : Option V :=
  (s.find? (fun p => p.1 = t)).map Prod.snd

/-- The number a labelled frame gives for a row and a column label. -/
def entry [DecidableEq κ] (index cols : List κ) (rows : List (List V)) (t u : κ) : Option V :=
  (lookup (index.zip rows) t).bind (fun r => lookup (cols.zip r) u)

/-- The expected return the object attaches to a ticker. -/
def muOf [DecidableEq κ] (o : Obj κ V K) (t : κ) : Option V :=
  o.mu.bind (fun m => lookup (o.tickers.zip m) t)

/-- The covariance the object attaches to a pair of tickers. -/
def covOf [DecidableEq κ] (o : Obj κ V K) (t u : κ) : Option V :=
  match o.cov with
  | .one _ => Option.none
  | .two a => entry o.tickers o.tickers a.rows t u

/-- An argument holding one expected return per asset: `n` of them. -/
inductive Means : MuArg κ V → ℕ → List V → Prop
  | series (s : List (κ × V)) : Means (.series s) s.length (s.map Prod.snd)
  | list (l : List V) : Means (.list l) l.length l
  | array1 (l : List V) : Means (.array1 l) l.length l
  | column (l : List V) : Means (.array2 ⟨1, l.map (fun x => [x])⟩) l.length l

/-- An argument holding a matrix of `n` rows and `k` columns. -/
inductive Mat : CovArg κ V → ℕ → ℕ → List (List V) → Prop
  | frame (index cols : List κ) (rows : List (List V)) (h : index.length = rows.length)
      (w : ∀ r ∈ rows, r.length = cols.length) : Mat (.frame index cols rows) rows.length cols.length rows
  | array (a : Arr V) (w : ∀ r ∈ a.rows, r.length = a.width) : Mat (.array2 a) a.rows.length a.width a.rows

end Verif.Init
