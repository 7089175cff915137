import Verif.Bore.Model

/-!
# Model of `_EquivalentBorehole`

Source: `/repo/pygfunction/boreholes.py`, l. 341-402 (constructor, `distance`), l. 449-486 (`segments`), l. 549-580 (`_segment_edges`).  Floats are real numbers, arrays are lists.
`unique_distance` is modelled in `DistModel`.
-/

noncomputable section

namespace Verif.Bore

/-- Attributes of an `_EquivalentBorehole`. -/
@[ext]
structure EquivBore where
  H : ℝ
  D : ℝ
  rb : ℝ
  x : List ℝ
  y : List ℝ
  tilt : ℝ
  orientation : List ℝ

/-- The exceptions of the constructor. -/
inductive EquivErr where
  | index
  | attribute

/-- Argument of the constructor: a list of boreholes, a list of equivalent boreholes, or a tuple of attributes without or with tilt and orientation.  (Positions in tuples are arrays;
a scalar position is an array of one element, `np.atleast_1d`.) -/
inductive EquivArg where
  | boreholes (l : List Borehole)
  | equivalents (l : List EquivBore)
  | tuple5 (H D rb : ℝ) (x y : List ℝ)
  | tuple7 (H D rb : ℝ) (x y : List ℝ) (tilt : ℝ) (orientation : List ℝ)

/-- `_EquivalentBorehole.__init__` (l. 341-369).  `boreholes[0]` raises `IndexError` for an empty list.  A tuple of five elements leaves `self.tilt` unset, so that l. 369 raises
`AttributeError`. -/
def EquivBore.new : EquivArg → Except EquivErr EquivBore
  | .boreholes [] => .error .index
  | .boreholes (b :: l) => .ok ⟨b.H, b.D, b.rb, (b :: l).map Borehole.x, (b :: l).map Borehole.y, b.tilt, (b :: l).map Borehole.orientation⟩
  | .equivalents [] => .error .index
  | .equivalents (e :: l) => .ok ⟨e.H, e.D, e.rb, (e :: l).flatMap EquivBore.x, (e :: l).flatMap EquivBore.y, e.tilt, (e :: l).flatMap EquivBore.orientation⟩
  | .tuple5 _ _ _ _ _ => .error .attribute
  | .tuple7 H D rb x y tilt o => .ok ⟨H, D, rb, x, y, tilt, o⟩

/-- `self.nBoreholes` (l. 367). -/
def EquivBore.nBoreholes (e : EquivBore) : ℕ := e.x.length

/-- `_EquivalentBorehole.distance` (l. 399-402): rows for the boreholes of the target. -/
def EquivBore.distance (e target : EquivBore) : List (List ℝ) :=
  (target.x.zip target.y).map fun q => (e.x.zip e.y).map fun p => max (Real.sqrt ((q.1 + -p.1) ^ 2 + (q.2 + -p.2) ^ 2)) e.rb

/-- `_EquivalentBorehole._segment_edges` (l. 577-580). -/
def EquivBore.edges (e : EquivBore) (ratios : List ℝ) : List ℝ := (0 :: cumsumFrom 0 ratios).map (· * e.H)

/-- The tuple given to the constructor for one segment (l. 476-484). -/
def EquivBore.segmentAt (e : EquivBore) (z ρ : ℝ) : Except EquivErr EquivBore :=
  EquivBore.new (.tuple7 (ρ * e.H) (e.D + z * Real.cos e.tilt) e.rb
    (List.zipWith (fun x o => x + z * Real.sin e.tilt * Real.cos o) e.x e.orientation)
    (List.zipWith (fun y o => y + z * Real.sin e.tilt * Real.sin o) e.y e.orientation) e.tilt e.orientation)

/-- `_EquivalentBorehole.segments` (l. 473-486). -/
def EquivBore.segments (e : EquivBore) (ratios : List ℝ) : Except EquivErr (List EquivBore) :=
  (List.zipWith (fun z ρ => (z, ρ)) (e.edges ratios).dropLast ratios).mapM fun p => e.segmentAt p.1 p.2

end Verif.Bore
