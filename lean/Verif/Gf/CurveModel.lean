import Mathlib.Analysis.SpecialFunctions.Log.Basic
import Mathlib.Order.WithBot
import Verif.Gf.DispatchModel

/-!
# Model of the figure of a g-function

Models `pygfunction/gfunction.py`: the times and values that a `gFunction` stores (`__init__`, l. 252, 285-286; `evaluate_g_function`, l. 469-490), and the curves of
`visualize_g_function` (l. 518-543), with the abscissas of `visualize_heat_extraction_rates` (l. 584-586) and `visualize_temperatures` (l. 881-883).

Simplifications: exact arithmetic.  An exception is `none`.  `np.log(0)` is minus infinity, here `⊥` (numpy warns).  `solve` is any function of the times; the attributes that it changes in the
solver are not read by the figure.  `solver.nMassFlow` is that of the stored values.  Axes, colours and the text of the labels are left out: a curve has the indices of its label.
-/

noncomputable section

namespace Verif.Gf

/-- Results of `solve`: one g-function, or `gFunc[i, j]` for `k` mass flow rates. -/
inductive Values
  | one (g : List ℝ)
  | many (k : ℕ) (g : ℕ → ℕ → List ℝ)

/-- `self.time` and `self.gFunc` (missing at first). -/
structure Stored where
  time : Option (List ℝ)
  g : Option Values

/-- `evaluate_g_function` (l. 469-490): the object after the call, and the returned values.  The times are saved before the solution (l. 473, 483). -/
def evaluate (solve : List ℝ → Option Values) (o : Stored) (a : List ℝ) : Stored × Option Values :=
  match times a with
  | none => (o, none)
  | some t =>
    match solve t with
    | none => (⟨some t, o.g⟩, none)
    | some v => (⟨some t, some v⟩, some v)

/-- End of `__init__` (l. 252, 285-286). -/
def built (solve : List ℝ → Option Values) : Option (List ℝ) → Option Stored
  | none => some ⟨none, none⟩
  | some a =>
    match (evaluate solve ⟨some a, none⟩ a).2 with
    | none => none
    | some _ => some (evaluate solve ⟨some a, none⟩ a).1

/-- Calls of `evaluate_g_function`, whose exceptions are caught. -/
def evaluations (solve : List ℝ → Option Values) (o : Stored) (as : List (List ℝ)) : Stored := as.foldl (fun o a => (evaluate solve o a).1) o

/-- `ts = np.mean([b.H for b in ...])**2/(9.*self.alpha)` (l. 519, 584, 881). -/
def charTime (Hs : List ℝ) (alpha : ℝ) : ℝ := (Hs.sum / Hs.length) ^ 2 / (9 * alpha)

/-- `np.log(t/ts)` (l. 521, 586, 883); `ts` is taken from the boreholes of the object for the g-function, and from those of the solver for the other figures. -/
def lnTime (ts t : ℝ) : WithBot ℝ := if t / ts = 0 then ⊥ else ((Real.log (t / ts) : ℝ) : WithBot ℝ)

/-- `ax.plot(x, y)` raises when the lengths differ. -/
def plotted (x : List (WithBot ℝ)) (y : List ℝ) : Option (List (WithBot ℝ × ℝ)) := if x.length = y.length then some (List.zip x y) else none

/-- An index of an axis of length `k`. -/
def axisIndex (k : ℕ) (i : ℤ) : Option ℕ := if 0 ≤ i then (if i < k then some i.toNat else none) else if -(k : ℤ) ≤ i then some (i + k).toNat else none

/-- A curve: the indices of its label, and its points. -/
abbrev Curve := Option (ℤ × ℤ) × List (WithBot ℝ × ℝ)

/-- The curve of `gFunc[i,j,:]` (l. 528-531, 538-542). -/
def curveOf (x : List (WithBot ℝ)) (k : ℕ) (g : ℕ → ℕ → List ℝ) (p : ℤ × ℤ) : Option Curve :=
  match axisIndex k p.1, axisIndex k p.2 with
  | some i, some j => (plotted x (g i j)).map fun c => (some p, c)
  | _, _ => none

/-- The pairs of the two loops (l. 526-527). -/
def allPairs (k : ℕ) : List (ℤ × ℤ) := (List.range k).flatMap fun j : ℕ => (List.range k).map fun i : ℕ => ((i : ℤ), (j : ℤ))

/-- `visualize_g_function` (l. 518-543) for boreholes of the lengths `Hs`. -/
def drawG (Hs : List ℝ) (alpha : ℝ) (o : Stored) (which : Option (List (ℤ × ℤ))) : Option (List Curve) :=
  match o.time, o.g with
  | some t, some (.one g) => (plotted (t.map (lnTime (charTime Hs alpha))) g).map fun c => [(none, c)]
  | some t, some (.many k g) => (which.getD (allPairs k)).mapM (curveOf (t.map (lnTime (charTime Hs alpha))) k g)
  | _, _ => none

end Verif.Gf
