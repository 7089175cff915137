import Verif.Bore.FieldModel

/-!
# Model of what the views of a bore field draw

Models `Borefield.visualize_field` (`pygfunction/borefield.py`, l. 343-434) and the deprecated function
`boreholes.visualize_field` (`pygfunction/boreholes.py`, l. 1407-1514): the coordinates given to `plot` and `text`.

Simplifications: a figure is the list of what is drawn, grouped by kind (marks, lines, labels) and by view, whether it
is drawn in one call or in several; line styles, axes, layout and the warning are left out.
-/

noncomputable section

namespace Verif.Bore

open Real

/-- What the top view shows: dashed lines, marks, labels. -/
@[ext]
structure TopView where
  lines : List ((ℝ × ℝ) × (ℝ × ℝ))
  marks : List (ℝ × ℝ)
  labels : List ((ℝ × ℝ) × ℕ)

/-- What the view in space shows: marks, lines. -/
@[ext]
structure SpaceView where
  marks : List (ℝ × ℝ × ℝ)
  lines : List ((ℝ × ℝ × ℝ) × (ℝ × ℝ × ℝ))

/-- A figure: the views it has. -/
@[ext]
structure Figure where
  top : Option TopView
  space : Option SpaceView

/-- `viewTop`, `view3D`, `labels`, `showTilt`. -/
structure ViewOptions where
  viewTop : Bool := true
  view3D : Bool := true
  labels : Bool := true
  showTilt : Bool := true

/-- `x_H`, `y_H`, `z_H` (borefield.py l. 394-396): products and sums of arrays, element by element. -/
def Borefield.xH (f : Borefield) : List ℝ :=
  List.zipWith (· + ·) f.x (List.zipWith (· * ·) (List.zipWith (· * ·) f.H (f.tilt.map sin)) (f.orientation.map cos))
def Borefield.yH (f : Borefield) : List ℝ :=
  List.zipWith (· + ·) f.y (List.zipWith (· * ·) (List.zipWith (· * ·) f.H (f.tilt.map sin)) (f.orientation.map sin))
def Borefield.zH (f : Borefield) : List ℝ :=
  List.zipWith (· + ·) f.D (List.zipWith (· * ·) f.H (f.tilt.map cos))

/-- The top view (l. 401-415): `plot` of two arrays of shape `(2, nBoreholes)` draws one line for each column;
`enumerate(self)` gives the boreholes in order. -/
def Borefield.topView (f : Borefield) (o : ViewOptions) : TopView where
  lines := if o.showTilt then (f.x.zip f.y).zip (f.xH.zip f.yH) else []
  marks := f.x.zip f.y
  labels := if o.labels then f.toBoreholes.zipIdx.map fun bi => ((bi.1.x, bi.1.y), bi.2) else []

/-- The view in space (l. 420-427). -/
def Borefield.spaceView (f : Borefield) : SpaceView where
  marks := f.x.zip (f.y.zip f.D)
  lines := (List.range f.nBoreholes).map fun i =>
    ((f.x.getD i 0, f.y.getD i 0, f.D.getD i 0), (f.xH.getD i 0, f.yH.getD i 0, f.zH.getD i 0))

/-- `Borefield.visualize_field`. -/
def Borefield.draw (f : Borefield) (o : ViewOptions) : Figure where
  top := if o.viewTop then some (f.topView o) else none
  space := if o.view3D then some f.spaceView else none

/-- One turn of the loop of the top view (boreholes.py l. 1462-1480), with the index `i` counted by the loop. -/
def topStep (o : ViewOptions) (acc : TopView × ℕ) (b : Borehole) : TopView × ℕ :=
  (⟨if o.showTilt then acc.1.lines ++ [((b.x, b.y),
        (b.x + b.H * sin b.tilt * cos b.orientation, b.y + b.H * sin b.tilt * sin b.orientation))] else acc.1.lines,
    acc.1.marks ++ [(b.x, b.y)],
    if o.labels then acc.1.labels ++ [((b.x, b.y), acc.2)] else acc.1.labels⟩, acc.2 + 1)

/-- One turn of the loop of the view in space (l. 1486-1502). -/
def spaceStep (acc : SpaceView) (b : Borehole) : SpaceView :=
  ⟨acc.marks ++ [(b.x, b.y, b.D)], acc.lines ++ [((b.x, b.y, b.D),
    (b.x + b.H * sin b.tilt * cos b.orientation, b.y + b.H * sin b.tilt * sin b.orientation, b.D + b.H * cos b.tilt))]⟩

/-- `boreholes.visualize_field`. -/
def drawList (bs : List Borehole) (o : ViewOptions) : Figure where
  top := if o.viewTop then some (bs.foldl (topStep o) (⟨[], [], []⟩, 0)).1 else none
  space := if o.view3D then some (bs.foldl spaceStep ⟨[], []⟩) else none

end Verif.Bore
