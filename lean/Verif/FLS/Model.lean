import Verif.Bore.Model
import Mathlib.Analysis.SpecialFunctions.Gaussian.GaussianIntegral
import Mathlib.MeasureTheory.Integral.IntervalIntegral.Basic

/-!
# Model of the finite line source solution for vertical boreholes

Models `pygfunction/utilities.py`: `erfint` (l. 25-40), and `pygfunction/heat_transfer.py`: `_finite_line_source_integrand` (l. 1078-1145),
`_finite_line_source_steady_state` (l. 1333-1406), `finite_line_source_vectorized` without approximation (l. 755-773), the vertical branches without
approximation of `finite_line_source` (l. 226-262, 316-326), `_finite_line_source_equivalent_boreholes_integrand` (l. 1259-1330) and
`finite_line_source_equivalent_boreholes_vectorized` (l. 870-888).

Simplifications: exact arithmetic; `scipy.special.erf` is the error function and `scipy.integrate.quad`, `quad_vec` are exact integrals.  Arrays over pairs of
boreholes are evaluated element by element, so that the model has one pair; the array of times is a list.
-/

noncomputable section

namespace Verif.FLS

open Real MeasureTheory

/-- `scipy.special.erf`. -/
def erf (x : ℝ) : ℝ := 2 / √π * ∫ t in (0 : ℝ)..x, exp (-t ^ 2)

/-- `utilities.erfint` (l. 40). -/
def erfint (x : ℝ) : ℝ := x * erf x - 1 / √π * (1 - exp (-x ^ 2))

/-- Source (1) and receiver (2): lengths, buried depths and radial distance. -/
structure Pair where
  dis : ℝ
  H1 : ℝ
  D1 : ℝ
  H2 : ℝ
  D2 : ℝ

namespace Pair
variable (g : Pair)

/-- `q` of the real source (l. 1126-1130). -/
def qRea : List ℝ := [g.D2 - g.D1 + g.H2, g.D2 - g.D1, g.D2 - g.D1 - g.H1, g.D2 - g.D1 + g.H2 - g.H1]

/-- `q` of the image source (l. 1135-1139). -/
def qImg : List ℝ := [g.D2 + g.D1 + g.H2, g.D2 + g.D1, g.D2 + g.D1 + g.H1, g.D2 + g.D1 + g.H2 + g.H1]

/-- `q` of both (l. 1113-1121). -/
def qAll : List ℝ := [g.D2 - g.D1 + g.H2, g.D2 - g.D1, g.D2 - g.D1 - g.H1, g.D2 - g.D1 + g.H2 - g.H1,
  g.D2 + g.D1 + g.H2, g.D2 + g.D1, g.D2 + g.D1 + g.H1, g.D2 + g.D1 + g.H2 + g.H1]

end Pair

/-- `np.inner(p, x)` with `p = [1, -1, 1, -1, ...]`. -/
def inner4 (x : List ℝ) : ℝ := (List.zipWith (· * ·) [1, -1, 1, -1] x).sum
def inner8 (x : List ℝ) : ℝ := (List.zipWith (· * ·) [1, -1, 1, -1, 1, -1, 1, -1] x).sum

/-- `_finite_line_source_integrand` (l. 1110-1145); `rea`, `img` are `reaSource`, `imgSource`. -/
def integrand (g : Pair) (rea img : Bool) (s : ℝ) : ℝ :=
  if rea && img then s ^ (-2 : ℤ) * exp (-g.dis ^ 2 * s ^ 2) * inner8 (g.qAll.map fun q => erfint (q * s))
  else if rea then s ^ (-2 : ℤ) * exp (-g.dis ^ 2 * s ^ 2) * inner4 (g.qRea.map fun q => erfint (q * s))
  else if img then s ^ (-2 : ℤ) * exp (-g.dis ^ 2 * s ^ 2) * inner4 (g.qImg.map fun q => erfint (q * s))
  else 0

/-- `quad(f, a, b)`; `none` is `np.inf`. -/
def quad (f : ℝ → ℝ) (a : ℝ) : Option ℝ → ℝ
  | none => ∫ s in Set.Ioi a, f s
  | some b => ∫ s in a..b, f s

/-- Lower bound of integration (l. 245, 248). -/
def lower (alpha t : ℝ) : ℝ := 1 / √(4 * alpha * t)

/-- `finite_line_source` for one time (l. 243-246, 761-764). -/
def fls (t alpha : ℝ) (g : Pair) (rea img : Bool) : ℝ := 0.5 / g.H2 * quad (integrand g rea img) (lower alpha t) none

/-- `b = np.concatenate(([np.inf], a[:-1]))` (l. 251, 769). -/
def uppers (a : List ℝ) : List (Option ℝ) := none :: a.dropLast.map some

/-- `finite_line_source` for an array of times (l. 247-256, 765-773). -/
def flsMany (times : List ℝ) (alpha : ℝ) (g : Pair) (rea img : Bool) : List ℝ :=
  let a := times.map (lower alpha)
  Bore.cumsumFrom 0 (List.zipWith (fun a b => 0.5 / g.H2 * quad (integrand g rea img) a b) a (uppers a))

/-- One term of the steady-state solution (l. 1378-1379): `q * np.log(q + qpd) - qpd`. -/
def steadyTerm (dis q : ℝ) : ℝ := q * log (q + √(q ^ 2 + dis ^ 2)) - √(q ^ 2 + dis ^ 2)

/-- `_finite_line_source_steady_state` (l. 1365-1406), used for `time is np.inf`. -/
def steady (g : Pair) (rea img : Bool) : ℝ :=
  if rea && img then 0.5 / g.H2 * inner8 (g.qAll.map (steadyTerm g.dis))
  else if rea then 0.5 / g.H2 * inner4 (g.qRea.map (steadyTerm g.dis))
  else if img then 0.5 / g.H2 * inner4 (g.qImg.map (steadyTerm g.dis))
  else 0

/-- `np.exp(-dis**2*s**2) @ wDis` (l. 1307, 1316, 1325) for the distances and weights of two equivalent boreholes. -/
def weighted (dw : List (ℝ × ℝ)) (s : ℝ) : ℝ := (dw.map fun x => exp (-x.1 ^ 2 * s ^ 2) * x.2).sum

/-- `_finite_line_source_equivalent_boreholes_integrand` (l. 1295-1330); `g.dis` is not used. -/
def integrandEq (g : Pair) (dw : List (ℝ × ℝ)) (rea img : Bool) (s : ℝ) : ℝ :=
  if rea && img then s ^ (-2 : ℤ) * weighted dw s * inner8 (g.qAll.map fun q => erfint (q * s))
  else if rea then s ^ (-2 : ℤ) * weighted dw s * inner4 (g.qRea.map fun q => erfint (q * s))
  else if img then s ^ (-2 : ℤ) * weighted dw s * inner4 (g.qImg.map fun q => erfint (q * s))
  else 0

/-- `finite_line_source_equivalent_boreholes_vectorized` for one time (l. 875-878). -/
def flsEq (t alpha : ℝ) (g : Pair) (dw : List (ℝ × ℝ)) (N2 : ℕ) (rea img : Bool) : ℝ :=
  0.5 / (N2 * g.H2) * quad (integrandEq g dw rea img) (lower alpha t) none

/-- … for an array of times (l. 879-887). -/
def flsEqMany (times : List ℝ) (alpha : ℝ) (g : Pair) (dw : List (ℝ × ℝ)) (N2 : ℕ) (rea img : Bool) : List ℝ :=
  let a := times.map (lower alpha)
  Bore.cumsumFrom 0 (List.zipWith (fun a b => 0.5 / (N2 * g.H2) * quad (integrandEq g dw rea img) a b) a (uppers a))

/-- Geometry of two vertical boreholes (l. 222-228): the distance is at least the radius of the source. -/
def pairOf (b1 b2 : Bore.Borehole) : Pair := ⟨b1.distance b2, b1.H, b1.D, b2.H, b2.D⟩

end Verif.FLS
