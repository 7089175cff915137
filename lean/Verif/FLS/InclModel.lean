import Verif.FLS.Model
import Mathlib.Analysis.SpecialFunctions.Trigonometric.Basic

/-!
# Model of the finite line source solution for inclined boreholes

Models `pygfunction/heat_transfer.py`: `_finite_line_source_inclined_integrand` (l. 1206-1256), `finite_line_source_inclined_vectorized` without approximation
(l. 1046-1069), the inclined branches without approximation of `finite_line_source` (l. 237-279, 315-345) and `_finite_line_source_inclined_steady_state`
(l. 1467-1516).

Simplifications: exact arithmetic and integrals; one pair of boreholes; the nodes `u` in `(0, 1)` and halved weights `w` of `roots_legendre(M)`
(l. 1207-1209, 1468-1470) are an arbitrary list.
-/

noncomputable section

namespace Verif.FLS.Incl

open Real MeasureTheory Bore

section
variable (b1 b2 : Borehole)

def dx : ℝ := b1.x - b2.x
def dy : ℝ := b1.y - b2.y
/-- `dzRea`, `dzImg` (l. 1219-1220). -/
def dzRea : ℝ := b1.D - b2.D
def dzImg : ℝ := b1.D + b2.D
/-- l. 1221. -/
def rr : ℝ := max (dx b1 b2 ^ 2 + dy b1 b2 ^ 2) (b1.rb ^ 2)
/-- l. 1222-1227. -/
def kRea0 : ℝ := sin b1.tilt * sin b2.tilt * cos (b1.orientation - b2.orientation) + cos b1.tilt * cos b2.tilt
def kImg0 : ℝ := sin b1.tilt * sin b2.tilt * cos (b1.orientation - b2.orientation) - cos b1.tilt * cos b2.tilt
def kRea1 : ℝ := sin b1.tilt * (cos b1.orientation * dx b1 b2 + sin b1.orientation * dy b1 b2) + cos b1.tilt * dzRea b1 b2
def kImg1 : ℝ := sin b1.tilt * (cos b1.orientation * dx b1 b2 + sin b1.orientation * dy b1 b2) + cos b1.tilt * dzImg b1 b2
def kRea2 : ℝ := sin b2.tilt * (cos b2.orientation * dx b1 b2 + sin b2.orientation * dy b1 b2) + cos b2.tilt * dzRea b1 b2
def kImg2 : ℝ := sin b2.tilt * (cos b2.orientation * dx b1 b2 + sin b2.orientation * dy b1 b2) - cos b2.tilt * dzImg b1 b2
end

/-- `np.exp(-(rr + dz**2)*s**2 + s**2*(…)) * (erf(…) - erf(…))` for one node (l. 1230-1231, 1232-1233, 1242-1243, 1251-1252). -/
def node (rr dz k0 k1 k2 H1 H2 u s : ℝ) : ℝ :=
  exp (-(rr + dz ^ 2) * s ^ 2 + s ^ 2 * (u ^ 2 * H1 ^ 2 * (k0 ^ 2 - 1) + 2 * u * H1 * (k0 * k2 - k1) + k2 ^ 2)) *
    (erf ((u * H1 * k0 + k2) * s) - erf ((u * H1 * k0 + k2 - H2) * s))

/-- `_finite_line_source_inclined_integrand`; `nodes` are pairs of node and weight. -/
def integrand (b1 b2 : Borehole) (nodes : List (ℝ × ℝ)) (rea img : Bool) (s : ℝ) : ℝ :=
  if rea && img then
    (nodes.map fun n => b1.H / s *
      (node (rr b1 b2) (dzRea b1 b2) (kRea0 b1 b2) (kRea1 b1 b2) (kRea2 b1 b2) b1.H b2.H n.1 s
        - node (rr b1 b2) (dzImg b1 b2) (kImg0 b1 b2) (kImg1 b1 b2) (kImg2 b1 b2) b1.H b2.H n.1 s) * n.2).sum
  else if rea then
    (nodes.map fun n => b1.H / s * node (rr b1 b2) (dzRea b1 b2) (kRea0 b1 b2) (kRea1 b1 b2) (kRea2 b1 b2) b1.H b2.H n.1 s * n.2).sum
  else if img then
    -(nodes.map fun n =>
      b1.H / s * node (dx b1 b2 ^ 2 + dy b1 b2 ^ 2) (dzImg b1 b2) (kImg0 b1 b2) (kImg1 b1 b2) (kImg2 b1 b2) b1.H b2.H n.1 s * n.2).sum
  else 0

/-- One time (l. 267-270, 1054-1057). -/
def fls (t alpha : ℝ) (b1 b2 : Borehole) (nodes : List (ℝ × ℝ)) (rea img : Bool) : ℝ :=
  0.5 / b2.H * quad (integrand b1 b2 nodes rea img) (lower alpha t) none

/-- Array of times (l. 271-279, 1058-1069). -/
def flsMany (times : List ℝ) (alpha : ℝ) (b1 b2 : Borehole) (nodes : List (ℝ × ℝ)) (rea img : Bool) : List ℝ :=
  let a := times.map (lower alpha)
  cumsumFrom 0 (List.zipWith (fun a b => 0.5 / b2.H * quad (integrand b1 b2 nodes rea img) a b) a (uppers a))

/-- The logarithm of one node of the steady-state solution (l. 1491-1492). -/
def steadyNode (rr dz k0 k1 k2 H1 H2 u : ℝ) : ℝ :=
  log ((2 * H2 * √(rr + dz ^ 2 + u ^ 2 * H1 ^ 2 + H2 ^ 2 + 2 * u * H1 * k1 - 2 * H2 * k2 - 2 * u * H1 * H2 * k0) + 2 * H2 ^ 2 - 2 * H2 * k2 - 2 * u * H1 * H2 * k0) /
    (2 * H2 * √(rr + dz ^ 2 + u ^ 2 * H1 ^ 2 + 2 * u * H1 * k1) - 2 * H2 * k2 - 2 * u * H1 * H2 * k0))

/-- `_finite_line_source_inclined_steady_state` (l. 1478-1516), used for `time is np.inf`. -/
def steady (b1 b2 : Borehole) (nodes : List (ℝ × ℝ)) (rea img : Bool) : ℝ :=
  if rea && img then
    0.5 * b1.H / b2.H * (nodes.map fun n =>
      (steadyNode (rr b1 b2) (dzRea b1 b2) (kRea0 b1 b2) (kRea1 b1 b2) (kRea2 b1 b2) b1.H b2.H n.1
        - steadyNode (dx b1 b2 ^ 2 + dy b1 b2 ^ 2) (dzImg b1 b2) (kImg0 b1 b2) (kImg1 b1 b2) (kImg2 b1 b2) b1.H b2.H n.1) * n.2).sum
  else if rea then
    0.5 * b1.H / b2.H * (nodes.map fun n => steadyNode (rr b1 b2) (dzRea b1 b2) (kRea0 b1 b2) (kRea1 b1 b2) (kRea2 b1 b2) b1.H b2.H n.1 * n.2).sum
  else if img then
    0.5 * b1.H / b2.H * (nodes.map fun n =>
      -steadyNode (dx b1 b2 ^ 2 + dy b1 b2 ^ 2) (dzImg b1 b2) (kImg0 b1 b2) (kImg1 b1 b2) (kImg2 b1 b2) b1.H b2.H n.1 * n.2).sum
  else 0

end Verif.FLS.Incl
