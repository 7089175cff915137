import Verif.Bore.FieldModel
import Mathlib.Analysis.SpecialFunctions.Complex.Arg

/-!
# Model of the borefield builders

Sources: `/repo/pygfunction/borefield.py`, l. 549-1136 (class methods of `Borefield`), and
`/repo/pygfunction/boreholes.py`, l. 697-1353 (deprecated functions returning lists).

Floats are real numbers, `N_1`, `N_2`, `N` are natural numbers,
`np.arctan2(y, x)` is the
argument of the complex number `x + i y` (both are 0 at the origin).  Deprecation warnings are
not modelled.
-/

noncomputable section

namespace Verif.Bore

open ArrayLike

/-- `np.arctan2(y, x)`. -/
def arctan2 (y x : ℝ) : ℝ := Complex.arg ⟨x, y⟩

/-- `np.sqrt((x - x0)**2 + (y - y0)**2)`. -/
def dist0 (x0 y0 x y : ℝ) : ℝ := Real.sqrt ((x - x0) ^ 2 + (y - y0) ^ 2)

/-- `np.arange(n)` as floats. -/
def arange (n : ℕ) : List ℝ := (List.range n).map fun i : ℕ => (i : ℝ)

/-- `np.tile(l, k)`. -/
def tile (l : List ℝ) (k : ℕ) : List ℝ := (List.range k).flatMap fun _ => l

/-- `np.repeat(l, k)`. -/
def npRepeat (l : List ℝ) (k : ℕ) : List ℝ := l.flatMap fun v => List.replicate k v

/-- `a * v` for an array and a scalar. -/
def scale (l : List ℝ) (v : ℝ) : List ℝ := l.map (· * v)

/-- Origin used for the tilt: the given one, or the default. -/
def originOr (origin : Option (ℝ × ℝ)) (dflt : ℝ × ℝ) : ℝ × ℝ := origin.getD dflt

/-- Centre of the rectangle (l. 607-608, 864-865, 942-943, 1029-1030). -/
def centre (N1 N2 : ℕ) (B1 B2 : ℝ) : ℝ × ℝ := (((N1 : ℝ) - 1) / 2 * B1, ((N2 : ℝ) - 1) / 2 * B2)

/-- Tail shared by all `Borefield` builders (l. 615-624, 721-731, 872-882, 957-967, 1048-1058,
1126-1136): orientation away from the origin, no tilt for boreholes on the origin. -/
def finish (H D rb tilt : ℝ) (o : ℝ × ℝ) (x y : List ℝ) : Option Borefield :=
  let orientation := List.zipWith (fun x y => arctan2 (y - o.2) (x - o.1)) x y
  let dis0 := List.zipWith (fun x y => dist0 o.1 o.2 x y) x y
  let tiltArg := if dis0.any (fun d => decide (d < rb))
    then array (dis0.map fun d => if d < rb then 0 else tilt) else scalar tilt
  Borefield.new (scalar H) (scalar D) (scalar rb) (array x) (array y) tiltArg (array orientation)

/-- `Borefield.rectangle_field`: coordinates (l. 613-614). -/
def rectX (N1 N2 : ℕ) (B1 : ℝ) : List ℝ := scale (tile (arange N1) N2) B1
def rectY (N1 N2 : ℕ) (B2 : ℝ) : List ℝ := scale (npRepeat (arange N2) N1) B2

/-- `Borefield.rectangle_field` (l. 604-624). -/
def rectangleField (N1 N2 : ℕ) (B1 B2 H D rb tilt : ℝ) (origin : Option (ℝ × ℝ)) : Option Borefield :=
  finish H D rb tilt (originOr origin (centre N1 N2 B1 B2)) (rectX N1 N2 B1) (rectY N1 N2 B2)

/-- Condition of the list comprehensions (l. 715, 720). -/
def stagKeep (N1 : ℕ) (last : Bool) (i j : ℕ) : Bool :=
  decide (i + 1 < N1) || last || decide (j % 2 = 0)

/-- `0.5 if j % 2 == 1 else 0.` (l. 712). -/
def shift (j : ℕ) : ℝ := if j % 2 = 1 then 1 / 2 else 0

/-- Coordinates of the staggered rectangle (l. 711-720). -/
def stagX (N1 N2 : ℕ) (last : Bool) (B1 : ℝ) : List ℝ :=
  scale ((List.range N2).flatMap fun j : ℕ =>
    ((List.range N1).filter fun i : ℕ => stagKeep N1 last i j).map fun i : ℕ => (i : ℝ) + shift j) B1
def stagY (N1 N2 : ℕ) (last : Bool) (B2 : ℝ) : List ℝ :=
  scale ((List.range N2).flatMap fun j : ℕ =>
    ((List.range N1).filter fun i : ℕ => stagKeep N1 last i j).map fun _ : ℕ => (j : ℝ)) B2

/-- Default origin of `Borefield.staggered_rectangle_field` (l. 701-706). -/
def stagCentre (N1 N2 : ℕ) (last : Bool) (B1 B2 : ℝ) : ℝ × ℝ :=
  if last then (((N1 : ℝ) - 1 / 2) / 2 * B1, ((N2 : ℝ) - 1) / 2 * B2) else centre N1 N2 B1 B2

/-- `Borefield.staggered_rectangle_field` (l. 693-731). -/
def staggeredField (N1 N2 : ℕ) (B1 B2 H D rb : ℝ) (last : Bool) (tilt : ℝ)
    (origin : Option (ℝ × ℝ)) : Option Borefield :=
  if N1 = 1 ∨ N2 = 1 then rectangleField N1 N2 B1 B2 H D rb tilt origin
  else finish H D rb tilt (originOr origin (stagCentre N1 N2 last B1 B2))
    (stagX N1 N2 last B1) (stagY N1 N2 last B2)

/-- `Borefield.dense_rectangle_field` (l. 797-804). -/
def denseField (N1 N2 : ℕ) (B H D rb : ℝ) (last : Bool) (tilt : ℝ) (origin : Option (ℝ × ℝ)) :
    Option Borefield :=
  let B2 := if N1 > 1 then Real.sqrt 3 / 2 * B else B
  staggeredField N1 N2 B B2 H D rb last tilt origin

/-- `Borefield.L_shaped_field`: coordinates (l. 870-871). -/
def lX (N1 N2 : ℕ) (B1 : ℝ) : List ℝ := scale (arange N1 ++ List.replicate (N2 - 1) 0) B1
def lY (N1 N2 : ℕ) (B2 : ℝ) : List ℝ :=
  scale (List.replicate N1 0 ++ (List.range (N2 - 1)).map fun j : ℕ => (j : ℝ) + 1) B2

/-- `Borefield.L_shaped_field` (l. 861-882); `np.zeros(-1)` raises when `N_2` is zero. -/
def lField (N1 N2 : ℕ) (B1 B2 H D rb tilt : ℝ) (origin : Option (ℝ × ℝ)) : Option Borefield :=
  if N2 = 0 then none
  else finish H D rb tilt (originOr origin (centre N1 N2 B1 B2)) (lX N1 N2 B1) (lY N1 N2 B2)

/-- `Borefield.U_shaped_field`: coordinates (l. 948-956). -/
def uX (N1 N2 : ℕ) (B1 : ℝ) : List ℝ :=
  scale (arange N1 ++ scale (tile (arange (min N1 2)) (N2 - 1)) ((N1 : ℝ) - 1)) B1
def uY (N1 N2 : ℕ) (B2 : ℝ) : List ℝ :=
  scale (List.replicate N1 0 ++
    npRepeat ((List.range (N2 - 1)).map fun j : ℕ => (j : ℝ) + 1) (min N1 2)) B2

/-- `Borefield.U_shaped_field` (l. 939-967); `np.tile(..., -1)` raises when `N_2` is zero. -/
def uField (N1 N2 : ℕ) (B1 B2 H D rb tilt : ℝ) (origin : Option (ℝ × ℝ)) : Option Borefield :=
  if N2 = 0 then none
  else finish H D rb tilt (originOr origin (centre N1 N2 B1 B2)) (uX N1 N2 B1) (uY N1 N2 B2)

/-- `n_top` (l. 1037). -/
def nTop (N1 N2 : ℕ) : ℕ := if N2 > 1 then N1 else 0

/-- `Borefield.box_shaped_field`: coordinates (l. 1035-1047). -/
def boxX (N1 N2 : ℕ) (B1 : ℝ) : List ℝ :=
  scale (arange N1 ++ scale (tile (arange (min N1 2)) (N2 - 2)) ((N1 : ℝ) - 1)
    ++ arange (nTop N1 N2)) B1
def boxY (N1 N2 : ℕ) (B2 : ℝ) : List ℝ :=
  scale (List.replicate N1 0
    ++ npRepeat ((List.range (N2 - 2)).map fun j : ℕ => (j : ℝ) + 1) (min N1 2)
    ++ List.replicate (nTop N1 N2) ((N2 : ℝ) - 1)) B2

/-- `Borefield.box_shaped_field` (l. 1026-1058). -/
def boxField (N1 N2 : ℕ) (B1 B2 H D rb tilt : ℝ) (origin : Option (ℝ × ℝ)) : Option Borefield :=
  finish H D rb tilt (originOr origin (centre N1 N2 B1 B2)) (boxX N1 N2 B1) (boxY N1 N2 B2)

/-- `Borefield.circle_field`: coordinates (l. 1124-1125). -/
def circX (N : ℕ) (R : ℝ) : List ℝ :=
  (List.range N).map fun i : ℕ => R * Real.cos (2 * Real.pi * (i : ℝ) / (N : ℝ))
def circY (N : ℕ) (R : ℝ) : List ℝ :=
  (List.range N).map fun i : ℕ => R * Real.sin (2 * Real.pi * (i : ℝ) / (N : ℝ))

/-- `Borefield.circle_field` (l. 1115-1136). -/
def circleField (N : ℕ) (R H D rb tilt : ℝ) (origin : Option (ℝ × ℝ)) : Option Borefield :=
  finish H D rb tilt (originOr origin (0, 0)) (circX N R) (circY N R)

/-! ### Deprecated functions of `boreholes.py` -/

/-- The borehole appended at `(x, y)` (e.g. l. 768-773). -/
def oldBorehole (H D rb tilt : ℝ) (o : ℝ × ℝ) (x y : ℝ) : Borehole :=
  if dist0 o.1 o.2 x y > rb then Borehole.new H D rb x y tilt (arctan2 (y - o.2) (x - o.1))
  else Borehole.new H D rb x y 0 0

/-- `boreholes.rectangle_field` (l. 753-775). -/
def oldRectangle (N1 N2 : ℕ) (B1 B2 H D rb tilt : ℝ) (origin : Option (ℝ × ℝ)) : List Borehole :=
  let o := originOr origin (centre N1 N2 B1 B2)
  (List.range N2).flatMap fun j : ℕ => (List.range N1).map fun i : ℕ =>
    oldBorehole H D rb tilt o ((i : ℝ) * B1) ((j : ℝ) * B2)

/-- Default origin of `boreholes.staggered_rectangle_field` (l. 855-860). -/
def oldStagCentre (N1 N2 : ℕ) (last : Bool) (B1 B2 : ℝ) : ℝ × ℝ :=
  if last then centre N1 N2 B1 B2
  else (((N1 : ℝ) - 1 / 2) / 2 * B1, ((N2 : ℝ) - 1 / 2) / 2 * B2)

/-- `boreholes.staggered_rectangle_field` (l. 847-879). -/
def oldStaggered (N1 N2 : ℕ) (B1 B2 H D rb : ℝ) (last : Bool) (tilt : ℝ)
    (origin : Option (ℝ × ℝ)) : List Borehole :=
  if N1 = 1 ∨ N2 = 1 then oldRectangle N1 N2 B1 B2 H D rb tilt origin
  else
    let o := originOr origin (oldStagCentre N1 N2 last B1 B2)
    (List.range N2).flatMap fun j : ℕ =>
      ((List.range N1).filter fun i : ℕ => stagKeep N1 last i j).map fun i : ℕ =>
        oldBorehole H D rb tilt o ((i : ℝ) * B1 + (if j % 2 = 1 then B1 / 2 else 0)) ((j : ℝ) * B2)

/-- `boreholes.dense_rectangle_field` (l. 950-955). -/
def oldDense (N1 N2 : ℕ) (B H D rb : ℝ) (last : Bool) (tilt : ℝ) (origin : Option (ℝ × ℝ)) :
    List Borehole :=
  if N1 = 1 then oldRectangle N1 N2 B B H D rb tilt origin
  else oldStaggered N1 N2 B (Real.sqrt 3 / 2 * B) H D rb last tilt origin

/-- `boreholes.L_shaped_field` (l. 1014-1047). -/
def oldL (N1 N2 : ℕ) (B1 B2 H D rb tilt : ℝ) (origin : Option (ℝ × ℝ)) : List Borehole :=
  let o := originOr origin (centre N1 N2 B1 B2)
  ((List.range N1).map fun i : ℕ => oldBorehole H D rb tilt o ((i : ℝ) * B1) 0) ++
  (List.range (N2 - 1)).map fun j : ℕ => oldBorehole H D rb tilt o 0 (((j : ℝ) + 1) * B2)

/-- `boreholes.U_shaped_field` (l. 1106-1153). -/
def oldU (N1 N2 : ℕ) (B1 B2 H D rb tilt : ℝ) (origin : Option (ℝ × ℝ)) : List Borehole :=
  if N1 > 2 ∧ N2 > 1 then
    let o := originOr origin (centre N1 N2 B1 B2)
    ((List.range N1).map fun i : ℕ => oldBorehole H D rb tilt o ((i : ℝ) * B1) 0) ++
    (List.range (N2 - 1)).flatMap fun j : ℕ =>
      [oldBorehole H D rb tilt o 0 (((j : ℝ) + 1) * B2),
       oldBorehole H D rb tilt o (((N1 : ℝ) - 1) * B1) (((j : ℝ) + 1) * B2)]
  else oldRectangle N1 N2 B1 B2 H D rb tilt origin

/-- `boreholes.box_shaped_field` (l. 1214-1271). -/
def oldBox (N1 N2 : ℕ) (B1 B2 H D rb tilt : ℝ) (origin : Option (ℝ × ℝ)) : List Borehole :=
  if N1 > 2 ∧ N2 > 2 then
    let o := originOr origin (centre N1 N2 B1 B2)
    ((List.range N1).flatMap fun i : ℕ =>
      [oldBorehole H D rb tilt o ((i : ℝ) * B1) 0,
       oldBorehole H D rb tilt o ((i : ℝ) * B1) (((N2 : ℝ) - 1) * B2)]) ++
    (List.range (N2 - 2)).flatMap fun j : ℕ =>
      [oldBorehole H D rb tilt o 0 (((j : ℝ) + 1) * B2),
       oldBorehole H D rb tilt o (((N1 : ℝ) - 1) * B1) (((j : ℝ) + 1) * B2)]
  else oldRectangle N1 N2 B1 B2 H D rb tilt origin

/-- `boreholes.circle_field` (l. 1330-1353). -/
def oldCircle (N : ℕ) (R H D rb tilt : ℝ) (origin : Option (ℝ × ℝ)) : List Borehole :=
  let o := originOr origin (0, 0)
  (List.range N).map fun i : ℕ => oldBorehole H D rb tilt o
    (R * Real.cos (2 * Real.pi * (i : ℝ) / (N : ℝ))) (R * Real.sin (2 * Real.pi * (i : ℝ) / (N : ℝ)))

end Verif.Bore
