import Verif.Tac
import Mathlib.Analysis.SpecialFunctions.Trigonometric.Basic

/-!
# Model of the `Borehole` class

Source: `/repo/pygfunction/boreholes.py`, l. 12-296.  Floats are real numbers.  String
representation and the conversions by `float(...)` are not modelled.
-/

noncomputable section

namespace Verif.Bore

/-- Attributes of a `Borehole` object (l. 38-51). -/
@[ext]
structure Borehole where
  H : ℝ
  D : ℝ
  rb : ℝ
  x : ℝ
  y : ℝ
  tilt : ℝ
  orientation : ℝ

/-- `np.abs(self.tilt) > 1.0e-6` (l. 46). -/
def tilted (tilt : ℝ) : Prop := |tilt| > 1 / 10 ^ 6

instance (t : ℝ) : Decidable (tilted t) := by unfold tilted; infer_instance

/-- `Borehole.__init__` (l. 37-51): the orientation is dropped for vertical boreholes. -/
def Borehole.new (H D rb x y tilt orientation : ℝ) : Borehole :=
  ⟨H, D, rb, x, y, tilt, if tilted tilt then orientation else 0⟩

/-- `Borehole.distance` (l. 137-139). -/
def Borehole.distance (self target : Borehole) : ℝ :=
  max self.rb (Real.sqrt ((self.x - target.x) ^ 2 + (self.y - target.y) ^ 2))

/-- `np.cumsum`, starting from the accumulated value `a`. -/
def cumsumFrom (a : ℝ) : List ℝ → List ℝ
  | [] => []
  | v :: l => (a + v) :: cumsumFrom (a + v) l

/-- `segment_ratios = np.full(nSegments, 1. / nSegments)` (l. 211, 259, 292), the default. -/
def uniformRatios (n : ℕ) : List ℝ := List.replicate n (1 / (n : ℝ))

/-- `Borehole._segment_edges` (l. 258-261). -/
def Borehole.edges (b : Borehole) (ratios : List ℝ) : List ℝ :=
  (0 :: cumsumFrom 0 ratios).map (· * b.H)

/-- `Borehole._segment_midpoints` (l. 291-295). -/
def Borehole.midpoints (b : Borehole) (ratios : List ℝ) : List ℝ :=
  List.zipWith (fun z ρ => z + ρ * b.H / 2) (b.edges ratios).dropLast ratios

/-- One turn of the loop of `Borehole.segments` (l. 214-227). -/
def Borehole.segmentAt (b : Borehole) (z ρ : ℝ) : Borehole :=
  Borehole.new (ρ * b.H) (b.D + z * Real.cos b.tilt) b.rb
    (b.x + z * Real.sin b.tilt * Real.cos b.orientation)
    (b.y + z * Real.sin b.tilt * Real.sin b.orientation) b.tilt b.orientation

/-- `Borehole.segments` (l. 210-228). -/
def Borehole.segments (b : Borehole) (ratios : List ℝ) : List Borehole :=
  List.zipWith b.segmentAt (b.edges ratios).dropLast ratios

end Verif.Bore
