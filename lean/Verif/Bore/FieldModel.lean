import Verif.Bore.Model

/-!
# Model of the `Borefield` class

Source: `/repo/pygfunction/borefield.py`, l. 12-144 (constructor, indexing, comparison,
concatenation), l. 436-547 (conversions, files), and `/repo/pygfunction/boreholes.py`,
l. 59-107 (`Borehole.__add__`, `__radd__`) and l. 1356-1404 (`field_from_file`).

Floats are real numbers, numpy arrays are lists, an exception is `none`.  A text file is the
matrix of its numbers here; its characters, formatting and parsing are modelled in `TextModel.lean`.  `list + Borefield` and the like are modelled through the function
that Python dispatches to.
-/

noncomputable section

namespace Verif.Bore

/-- `npt.ArrayLike` restricted to scalars and one-dimensional arrays. -/
inductive ArrayLike (α : Type) where
  | scalar (v : α)
  | array (l : List α)

namespace ArrayLike
variable {α β : Type}

/-- Elementwise function. -/
def map (f : α → β) : ArrayLike α → ArrayLike β
  | scalar v => scalar (f v)
  | array l => array (l.map f)

/-- `np.atleast_1d`. -/
def atleast1d : ArrayLike α → List α
  | scalar v => [v]
  | array l => l

/-- Broadcasting an array of another length than `n`: only length one can be stretched. -/
def stretch (n : ℕ) : List α → Option (List α)
  | [v] => some (List.replicate n v)
  | _ => none

/-- `np.broadcast_to(a, n)`; `none` stands for `ValueError`. -/
def broadcastTo : ArrayLike α → ℕ → Option (List α)
  | scalar v, n => some (List.replicate n v)
  | array l, n =>
    if l.length = n then some l else stretch n l

end ArrayLike

open ArrayLike

/-- Attributes of a `Borefield`. -/
@[ext]
structure Borefield where
  nBoreholes : ℕ
  H : List ℝ
  D : List ℝ
  rb : List ℝ
  x : List ℝ
  y : List ℝ
  tilt : List ℝ
  orientation : List ℝ

/-- `np.multiply(orientation, self._is_tilted)` (l. 69).  This branch is only reached with at
least two boreholes, so that broadcasting extends `orientation` only. -/
def maskOrientation (orientation : ArrayLike ℝ) (isTilted : List Bool) : Option (List ℝ) :=
  (orientation.broadcastTo isTilted.length).map fun o =>
    List.zipWith (fun v t => v * (if t then 1 else 0)) o isTilted

/-- Orientations (l. 63-69). -/
def fieldOrientation (orientation : ArrayLike ℝ) (isTilted : List Bool) (n : ℕ) : Option (List ℝ) :=
  if ¬ isTilted.any id then (scalar 0).broadcastTo n
  else if isTilted.all id then orientation.broadcastTo n
  else maskOrientation orientation isTilted

/-- `Borefield.__init__` (l. 42-69). -/
def Borefield.new (H D rb x y tilt orientation : ArrayLike ℝ) : Option Borefield := do
  let x := x.atleast1d
  let y := y.atleast1d
  let n := max x.length y.length
  let H ← H.broadcastTo n
  let D ← D.broadcastTo n
  let rb ← rb.broadcastTo n
  let x ← (array x).broadcastTo n
  let y ← (array y).broadcastTo n
  let tiltArr ← tilt.broadcastTo n
  let isTilted ← (tilt.map fun t => decide (tilted t)).broadcastTo n
  let o ← fieldOrientation orientation isTilted n
  some ⟨n, H, D, rb, x, y, tiltArr, o⟩

/-- Python list/array indexing with an integer (negative values count from the end); `none`
stands for `IndexError`. -/
def pyGet {α : Type} (l : List α) (k : ℤ) : Option α :=
  if 0 ≤ k then l[k.toNat]?
  else if 0 ≤ (l.length : ℤ) + k then l[((l.length : ℤ) + k).toNat]?
  else none

/-- `Borefield.__getitem__` with an integer key (l. 71-80): a `Borehole`. -/
def Borefield.getItem (f : Borefield) (k : ℤ) : Option Borehole := do
  let H ← pyGet f.H k
  let D ← pyGet f.D k
  let rb ← pyGet f.rb k
  let x ← pyGet f.x k
  let y ← pyGet f.y k
  let t ← pyGet f.tilt k
  let o ← pyGet f.orientation k
  some (Borehole.new H D rb x y t o)

/-- `a[key]` for a list of integer positions (a slice selects such a list). -/
def pyGets {α : Type} (l : List α) (ks : List ℤ) : Option (List α) := ks.mapM (pyGet l)

/-- `Borefield.__getitem__` with a list of indices or a slice (l. 71-80): a `Borefield`. -/
def Borefield.getItems (f : Borefield) (ks : List ℤ) : Option Borefield := do
  let H ← pyGets f.H ks
  let D ← pyGets f.D ks
  let rb ← pyGets f.rb ks
  let x ← pyGets f.x ks
  let y ← pyGets f.y ks
  let t ← pyGets f.tilt ks
  let o ← pyGets f.orientation ks
  Borefield.new (array H) (array D) (array rb) (array x) (array y) (array t) (array o)

/-- `Borefield.to_boreholes` (l. 446): `list(self)` calls `__getitem__` with 0, 1, ... until
`IndexError`. -/
def Borefield.toBoreholes (f : Borefield) : List Borehole :=
  (List.range f.nBoreholes).filterMap fun k : ℕ => f.getItem k

/-- `Borefield.from_boreholes` with a list (l. 490-502). -/
def Borefield.fromBoreholes (bs : List Borehole) : Option Borefield :=
  Borefield.new (array (bs.map (·.H))) (array (bs.map (·.D))) (array (bs.map (·.rb)))
    (array (bs.map (·.x))) (array (bs.map (·.y))) (array (bs.map (·.tilt)))
    (array (bs.map (·.orientation)))

/-- The operand of an addition. -/
inductive Operand where
  | borehole (b : Borehole)
  | list (l : List Borehole)
  | field (f : Borefield)

/-- Conversion of the operand to a list (l. 121-125, 139-143). -/
def Operand.toList : Operand → List Borehole
  | .borehole b => [b]
  | .list l => l
  | .field f => f.toBoreholes

/-- `Borefield.__add__` (l. 110-126). -/
def Borefield.add (f : Borefield) (o : Operand) : Option Borefield :=
  Borefield.fromBoreholes (f.toBoreholes ++ o.toList)

/-- `Borefield.__radd__` (l. 128-144). -/
def Borefield.radd (f : Borefield) (o : Operand) : Option Borefield :=
  Borefield.fromBoreholes (o.toList ++ f.toBoreholes)

/-- `Borehole.__add__` (boreholes.py, l. 59-82). -/
def Borehole.add (b : Borehole) : Operand → Option Borefield
  | .borehole c => Borefield.fromBoreholes [b, c]
  | .list l => Borefield.fromBoreholes ([b] ++ l)
  | .field f => f.radd (.borehole b)

/-- `Borehole.__radd__` (boreholes.py, l. 84-107). -/
def Borehole.radd (b : Borehole) : Operand → Option Borefield
  | .borehole c => Borefield.fromBoreholes [c, b]
  | .list l => Borefield.fromBoreholes (l ++ [b])
  | .field f => f.add (.borehole b)

/-- `np.allclose` with the default tolerances, for arrays of the same shape. -/
def allclose (a b : List ℝ) : Prop :=
  ∀ p ∈ a.zip b, |p.1 - p.2| ≤ 1 / 10 ^ 8 + 1 / 10 ^ 5 * |p.2|

/-- `Borefield.__eq__` between two borefields (l. 88-98). -/
def Borefield.eq (f g : Borefield) : Prop :=
  f.nBoreholes = g.nBoreholes ∧ allclose f.H g.H ∧ allclose f.D g.D ∧ allclose f.rb g.rb ∧
    allclose f.x g.x ∧ allclose f.y g.y ∧ allclose f.tilt g.tilt ∧
    allclose f.orientation g.orientation

/-- `Borefield.to_file` (l. 458-471): the rows of the file. -/
def Borefield.toFile (f : Borefield) : List (List ℝ) :=
  (List.range f.nBoreholes).map fun k : ℕ =>
    [f.x.getD k 0, f.y.getD k 0, f.H.getD k 0, f.D.getD k 0, f.rb.getD k 0, f.tilt.getD k 0,
      f.orientation.getD k 0]

/-- Column `c` of a matrix. -/
def column (data : List (List ℝ)) (c : ℕ) : List ℝ := data.map fun row => row.getD c 0

/-- `Borefield.from_file` (l. 531-547) on a matrix with `cols` columns. -/
def Borefield.fromFile (cols : ℕ) (data : List (List ℝ)) : Option Borefield :=
  Borefield.new (array (column data 2)) (array (column data 3)) (array (column data 4))
    (array (column data 0)) (array (column data 1))
    (if cols = 7 then array (column data 5) else scalar 0)
    (if cols = 7 then array (column data 6) else scalar 0)

/-- One line of `field_from_file` (boreholes.py, l. 1387-1402). -/
def boreholeFromLine (line : List ℝ) : Borehole :=
  Borehole.new (line.getD 2 0) (line.getD 3 0) (line.getD 4 0) (line.getD 0 0) (line.getD 1 0)
    (if line.length = 7 then line.getD 5 0 else 0) (if line.length = 7 then line.getD 6 0 else 0)

/-- `field_from_file` (boreholes.py, l. 1383-1404). -/
def fieldFromFile (data : List (List ℝ)) : List Borehole := data.map boreholeFromLine

end Verif.Bore
