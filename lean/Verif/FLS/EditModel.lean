import Verif.FLS.ListModel

/-!
# Model of `Borehole` objects whose attributes are changed

Models `pygfunction/boreholes.py`: `Borehole.__init__` (l. 37-51), with the flag `_is_tilted` that it stores (l. 46), `is_tilted`, `is_vertical` (l. 151, 163), `segments`
(l. 210-228); `pygfunction/heat_transfer.py`: `finite_line_source` for two boreholes (l. 204-279), which chooses its solution with `is_vertical` (l. 207).

Simplifications: those of `Verif.FLS.ListModel`; the attributes are plain numbers that the caller may assign at any time.
-/

noncomputable section

namespace Verif.FLS

open Bore

/-- A `Borehole` object: its public attributes and the stored flag. -/
@[ext]
structure BoreObj where
  b : Borehole
  flag : Bool

/-- `Borehole(H, D, r_b, x, y, tilt, orientation)` (l. 37-51). -/
def BoreObj.new (H D rb x y tilt orientation : ℝ) : BoreObj :=
  ⟨Borehole.new H D rb x y tilt orientation, decide (tilted tilt)⟩

/-- An assignment to an attribute, e.g. `borehole.H = 100.`. -/
inductive Edit where
  | H (v : ℝ)
  | D (v : ℝ)
  | rb (v : ℝ)
  | x (v : ℝ)
  | y (v : ℝ)
  | tilt (v : ℝ)
  | orientation (v : ℝ)

/-- The attributes are plain: no other attribute is changed. -/
def BoreObj.edit (o : BoreObj) : Edit → BoreObj
  | .H v => { o with b := { o.b with H := v } }
  | .D v => { o with b := { o.b with D := v } }
  | .rb v => { o with b := { o.b with rb := v } }
  | .x v => { o with b := { o.b with x := v } }
  | .y v => { o with b := { o.b with y := v } }
  | .tilt v => { o with b := { o.b with tilt := v } }
  | .orientation v => { o with b := { o.b with orientation := v } }

/-- Assignments, in order. -/
def BoreObj.edits (o : BoreObj) (l : List Edit) : BoreObj := l.foldl BoreObj.edit o

/-- `is_vertical` (l. 163). -/
def BoreObj.isVertical (o : BoreObj) : Bool := !o.flag

/-- `segments` (l. 210-228): each segment is a new object. -/
def BoreObj.segments (o : BoreObj) (ratios : List ℝ) : List BoreObj :=
  (o.b.segments ratios).map fun s => BoreObj.new s.H s.D s.rb s.x s.y s.tilt s.orientation

/-- `finite_line_source` for two boreholes (heat_transfer.py l. 204-279). -/
def flsObj (o : FlsOpts) (time : When) (o1 o2 : BoreObj) : Option Res :=
  (if o1.isVertical && o2.isVertical then flsVertical o (pairOf o1.b o2.b) time else flsInclined o o1.b o2.b time).map .pair

end Verif.FLS
