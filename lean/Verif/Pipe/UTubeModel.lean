import Verif.Tac
import Mathlib.Analysis.SpecialFunctions.Exp
import Mathlib.Analysis.SpecialFunctions.Pow.Real

/-!
# Model of `pipes.SingleUTube`

Models `pygfunction/pipes.py`: `SingleUTube._format_inputs` (l. 1608-1656), `_update_model_variables`
(l. 1568-1606), `coefficients_outlet_temperature` (l. 1094-1167), `coefficients_temperature`
(l. 1169-1325), and from `_BasePipe`: `coefficients_borehole_heat_extraction_rate` (l. 531-598),
`coefficients_fluid_heat_extraction_rate` (l. 600-667), `coefficients_inlet_temperature` (l. 287-345),
`effective_borehole_thermal_resistance` (l. 669-708) and the `get_*` methods (l. 84-285).  `Coaxial`
(l. 2504-2776) inherits these methods.

Simplifications: floats are real numbers; the segment edges are a function `zu` on `0..n`
(`Borehole._segment_edges`, modelled in `Bore/Model.lean`); the caches are not part of this model
(see `CacheModel`).  Division by zero (no flow) is outside of the model: theorems assume
non-zero conductances.
-/

noncomputable section

namespace Verif.Pipe

open Real

/-- Model variables `_beta1`, `_beta2`, `_beta12` and the borehole length. -/
structure UPar where
  b1 : ℝ
  b2 : ℝ
  b12 : ℝ
  H : ℝ

namespace UPar
variable (p : UPar)

/-- l. 1601-1606. -/
def beta : ℝ := 1 / 2 * (p.b2 - p.b1)
def gamma : ℝ := √(1 / 4 * (p.b1 + p.b2) ^ 2 + p.b12 * (p.b1 + p.b2))
def delta : ℝ := 1 / p.gamma * (p.b12 + 1 / 2 * (p.b1 + p.b2))

/-- Intermediate thermal parameters (l. 1149-1151, 1232-1234). -/
def A : ℝ := 1 - 1 / 2 * (p.b1 + p.b2) / p.gamma
def B : ℝ := 1 + 1 / 2 * (p.b1 + p.b2) / p.gamma
def C : ℝ := 1 / (p.B + p.A * exp (-2 * p.gamma * p.H))

/-- `coefficients_outlet_temperature`, inlet coefficient (l. 1153). -/
def outA : ℝ := (p.A + p.B * exp (-2 * p.gamma * p.H)) / (p.B + p.A * exp (-2 * p.gamma * p.H))

/-- l. 1156-1159, at one edge. -/
def outEdge (z : ℝ) : ℝ :=
  (p.b1 + p.b2) / p.gamma * p.C *
    (exp (-z * (p.beta + p.gamma)) - exp (-z * (p.beta - p.gamma) - 2 * p.gamma * p.H))

/-- `coefficients_outlet_temperature`, coefficient of the wall temperature of segment `u` (l. 1160). -/
def outB (zu : ℕ → ℝ) (u : ℕ) : ℝ := -(p.outEdge (zu (u + 1)) - p.outEdge (zu u))

/-- `coefficients_temperature`, inlet coefficient, downward pipe (l. 1236-1241). -/
def inDown (z : ℝ) : ℝ :=
  1 / 2 * p.C * (((1 - p.delta) * p.A + p.b12 / p.gamma * p.B) * exp ((p.beta + p.gamma) * z - 2 * p.gamma * p.H)
    + ((1 + p.delta) * p.B - p.b12 / p.gamma * p.A) * exp ((p.beta - p.gamma) * z))

/-- Upward pipe (l. 1243-1248). -/
def inUp (z : ℝ) : ℝ :=
  1 / 2 * p.C * (((1 + p.delta) * p.B - p.b12 / p.gamma * p.A) * exp ((p.beta + p.gamma) * z - 2 * p.gamma * p.H)
    + ((1 - p.delta) * p.A + p.b12 / p.gamma * p.B) * exp ((p.beta - p.gamma) * z))

/-- l. 1253-1256. -/
def A4 : ℝ := (p.b1 - p.delta * p.b1 - p.b2 * p.b12 / p.gamma) / (p.beta + p.gamma)
def B4 : ℝ := (p.b1 + p.delta * p.b1 + p.b2 * p.b12 / p.gamma) / (p.beta - p.gamma)
def A5 : ℝ := (p.b2 + p.delta * p.b2 + p.b1 * p.b12 / p.gamma) / (p.beta + p.gamma)
def B5 : ℝ := (p.b2 - p.delta * p.b2 - p.b1 * p.b12 / p.gamma) / (p.beta - p.gamma)

/-- l. 1267-1272. -/
def a00 : ℝ := -p.A4 * p.B
def a01 : ℝ := -p.A4 * p.A
def a02 : ℝ := -p.B4 * p.B
def a03 : ℝ := -p.B4 * p.A
def a04 : ℝ := p.b12 / p.gamma * (p.b1 + p.b2) / p.gamma
def a05 : ℝ := -p.b12 / p.gamma * (p.b1 + p.b2) / p.gamma

/-- l. 1295-1300. -/
def a10 : ℝ := p.A5 * p.B
def a11 : ℝ := p.A5 * p.A
def a12 : ℝ := p.B5 * p.B
def a13 : ℝ := p.B5 * p.A
def a14 : ℝ := (p.delta + 1) * (p.b1 + p.b2) / p.gamma
def a15 : ℝ := (p.delta - 1) * (p.b1 + p.b2) / p.gamma

/-- Downward pipe, edges above `z` (`dz >= 0`, l. 1274-1282). -/
def downP (z u : ℝ) : ℝ :=
  1 / 2 * (p.a01 * exp ((p.beta + p.gamma) * (z - u) - 2 * p.gamma * p.H)
    + p.a02 * exp ((p.beta - p.gamma) * (z - u))
    + p.a03 * exp ((p.beta - p.gamma) * (z - u) - 2 * p.gamma * p.H)
    + p.a04 * exp ((p.beta - p.gamma) * z - (p.beta + p.gamma) * u)
    - p.a05 * exp ((p.beta + p.gamma) * z - (p.beta - p.gamma) * u - 2 * p.gamma * p.H)
    + p.a05 * exp ((p.beta - p.gamma) * (z - u) - 2 * p.gamma * p.H))

/-- Downward pipe, edges below `z` (l. 1284-1293). -/
def downM (z u : ℝ) : ℝ :=
  1 / 2 * (p.a00 - p.a04 * exp ((p.beta + p.gamma) * (z - u))
    + p.a01 * exp (-2 * p.gamma * p.H)
    + p.a02
    + p.a03 * exp (-2 * p.gamma * p.H)
    + p.a04 * exp ((p.beta - p.gamma) * z - (p.beta + p.gamma) * u)
    - p.a05 * exp ((p.beta + p.gamma) * z - (p.beta - p.gamma) * u - 2 * p.gamma * p.H)
    + p.a05 * exp ((p.beta - p.gamma) * (z - u) - 2 * p.gamma * p.H))

/-- Upward pipe, edges above `z` (l. 1302-1310). -/
def upP (z u : ℝ) : ℝ :=
  1 / 2 * (p.a11 * exp ((p.beta + p.gamma) * (z - u) - 2 * p.gamma * p.H)
    + p.a12 * exp ((p.beta - p.gamma) * (z - u))
    + p.a13 * exp ((p.beta - p.gamma) * (z - u) - 2 * p.gamma * p.H)
    + p.a15 * exp ((p.beta - p.gamma) * z - (p.beta + p.gamma) * u)
    + p.a14 * exp ((p.beta + p.gamma) * z - (p.beta - p.gamma) * u - 2 * p.gamma * p.H)
    - p.a15 * exp ((p.beta - p.gamma) * (z - u) - 2 * p.gamma * p.H))

/-- Upward pipe, edges below `z` (l. 1312-1321). -/
def upM (z u : ℝ) : ℝ :=
  1 / 2 * (p.a10 - p.a14 * exp ((p.beta + p.gamma) * (z - u))
    + p.a11 * exp (-2 * p.gamma * p.H)
    + p.a12
    + p.a13 * exp (-2 * p.gamma * p.H)
    + p.a15 * exp ((p.beta - p.gamma) * z - (p.beta + p.gamma) * u)
    + p.a14 * exp ((p.beta + p.gamma) * z - (p.beta - p.gamma) * u - 2 * p.gamma * p.H)
    - p.a15 * exp ((p.beta - p.gamma) * (z - u) - 2 * p.gamma * p.H))

/-- `index = dz >= 0.` (l. 1259). -/
def edgeDown (z u : ℝ) : ℝ := if z - u ≥ 0 then p.downP z u else p.downM z u
def edgeUp (z u : ℝ) : ℝ := if z - u ≥ 0 then p.upP z u else p.upM z u

/-- `a_b = C * np.diff(a_b, axis=2)` (l. 1323). -/
def wallDown (zu : ℕ → ℝ) (z : ℝ) (u : ℕ) : ℝ := p.C * (p.edgeDown z (zu (u + 1)) - p.edgeDown z (zu u))
def wallUp (zu : ℕ → ℝ) (z : ℝ) (u : ℕ) : ℝ := p.C * (p.edgeUp z (zu (u + 1)) - p.edgeUp z (zu u))

/-- Outlet fluid temperature for `n` segments (`get_outlet_temperature`). -/
def outletT (zu : ℕ → ℝ) (n : ℕ) (Tin : ℝ) (Tb : ℕ → ℝ) : ℝ :=
  p.outA * Tin + ∑ u ∈ Finset.range n, p.outB zu u * Tb u

/-- Fluid temperature at depth `z` in the downward and upward pipes (`get_temperature`). -/
def downT (zu : ℕ → ℝ) (n : ℕ) (Tin : ℝ) (Tb : ℕ → ℝ) (z : ℝ) : ℝ :=
  p.inDown z * Tin + ∑ u ∈ Finset.range n, p.wallDown zu z u * Tb u
def upT (zu : ℕ → ℝ) (n : ℕ) (Tin : ℝ) (Tb : ℕ → ℝ) (z : ℝ) : ℝ :=
  p.inUp z * Tin + ∑ u ∈ Finset.range n, p.wallUp zu z u * Tb u

end UPar

/-- A single U-tube or coaxial borehole: reciprocals `G = 1 / _Rd` of the delta-circuit resistances (zero for the
entry `np.inf` of the coaxial borehole), length, `reversible_flow`. -/
structure UTube where
  G : Fin 2 → Fin 2 → ℝ
  H : ℝ
  reversible : Bool

/-- `SingleUTube` with delta-circuit resistances `Rd`. -/
def singleUTube (Rd : Fin 2 → Fin 2 → ℝ) (H : ℝ) (reversible : Bool) : UTube :=
  ⟨fun i j => 1 / Rd i j, H, reversible⟩

/-- `Coaxial.update_thermal_resistances` (l. 2633-2637): the inner pipe has no path to the wall. -/
def coaxial (iInner : Fin 2) (Rff Rfg H : ℝ) (reversible : Bool) : UTube :=
  ⟨fun i j => if i = iInner then (if j = iInner then 0 else 1 / Rff) else (if j = iInner then 1 / Rff else 1 / Rfg),
    H, reversible⟩

namespace UTube
variable (t : UTube)

/-- `_is_reversed` (l. 1638). -/
def isReversed (m : ℝ) : Bool := open Classical in decide (m < 0) && t.reversible

/-- `_iInlet`, `_iOutlet` (l. 1639-1644). -/
def iInlet (m : ℝ) : Fin 2 := if t.isReversed m then 1 else 0
def iOutlet (m : ℝ) : Fin 2 := if t.isReversed m then 0 else 1

/-- `_m_flow_pipe` (l. 1635). -/
def mFlowPipe (m : ℝ) : Fin 2 → ℝ := fun i => if i = 0 then m else -m

/-- `_update_model_variables` (l. 1589-1600): `1 / (Rd * m * cp)`. -/
def par (m cp : ℝ) : UPar where
  b1 := t.G (t.iInlet m) (t.iInlet m) / (|m| * cp)
  b2 := t.G (t.iOutlet m) (t.iOutlet m) / (|m| * cp)
  b12 := t.G (t.iInlet m) (t.iOutlet m) / (|m| * cp)
  H := t.H

/-- `coefficients_temperature` arranged by pipe (l. 1238, 1245, 1274, 1302): inlet coefficients. -/
def tempA (m cp z : ℝ) (i : Fin 2) : ℝ :=
  if i = t.iInlet m then (t.par m cp).inDown z else (t.par m cp).inUp z

/-- `coefficients_temperature`, wall coefficients. -/
def tempB (zu : ℕ → ℝ) (m cp z : ℝ) (i : Fin 2) (u : ℕ) : ℝ :=
  if i = t.iInlet m then (t.par m cp).wallDown zu z u else (t.par m cp).wallUp zu z u

/-- `coefficients_borehole_heat_extraction_rate` (l. 577-591): inlet coefficient of segment `v`. -/
def heatA (zu : ℕ → ℝ) (m cp : ℝ) (v : ℕ) : ℝ :=
  ∑ i, mFlowPipe m i * cp * (t.tempA m cp (zu (v + 1)) i - t.tempA m cp (zu v) i)

/-- Wall coefficients of segment `v`. -/
def heatB (zu : ℕ → ℝ) (m cp : ℝ) (v u : ℕ) : ℝ :=
  ∑ i, mFlowPipe m i * cp * (t.tempB zu m cp (zu (v + 1)) i u - t.tempB zu m cp (zu v) i u)

/-- `get_outlet_temperature`. -/
def outletT (zu : ℕ → ℝ) (n : ℕ) (m cp Tin : ℝ) (Tb : ℕ → ℝ) : ℝ := (t.par m cp).outletT zu n Tin Tb

/-- `get_temperature`: temperature at depth `z` in pipe `i`. -/
def temperature (zu : ℕ → ℝ) (n : ℕ) (m cp Tin : ℝ) (Tb : ℕ → ℝ) (z : ℝ) (i : Fin 2) : ℝ :=
  t.tempA m cp z i * Tin + ∑ u ∈ Finset.range n, t.tempB zu m cp z i u * Tb u

/-- `get_borehole_heat_extraction_rate`: heat extracted by segment `v`. -/
def segmentHeat (zu : ℕ → ℝ) (n : ℕ) (m cp Tin : ℝ) (Tb : ℕ → ℝ) (v : ℕ) : ℝ :=
  t.heatA zu m cp v * Tin + ∑ u ∈ Finset.range n, t.heatB zu m cp v u * Tb u

/-- `get_fluid_heat_extraction_rate` (l. 651-660). -/
def fluidHeat (zu : ℕ → ℝ) (n : ℕ) (m cp Tin : ℝ) (Tb : ℕ → ℝ) : ℝ :=
  (-(|m| * cp) + |m| * cp * (t.par m cp).outA) * Tin
    + ∑ u ∈ Finset.range n, |m| * cp * (t.par m cp).outB zu u * Tb u

/-- `get_inlet_temperature` (l. 330-338): inlet temperature for the fluid heat extraction rate `Q`;
`none` is the `LinAlgError`. -/
def inletT (zu : ℕ → ℝ) (n : ℕ) (m cp Q : ℝ) (Tb : ℕ → ℝ) : Option ℝ :=
  open Classical in
  if -(|m| * cp) + |m| * cp * (t.par m cp).outA = 0 then none
  else some ((-(|m| * cp) + |m| * cp * (t.par m cp).outA)⁻¹ * Q
    + ∑ u ∈ Finset.range n, -((-(|m| * cp) + |m| * cp * (t.par m cp).outA)⁻¹
      * (|m| * cp * (t.par m cp).outB zu u)) * Tb u)

/-- `effective_borehole_thermal_resistance` (l. 698-708); one segment. -/
def effectiveResistance (m cp : ℝ) : ℝ :=
  -(1 / 2) * t.H * (1 + (t.par m cp).outA) / t.heatA (fun k => if k = 0 then 0 else t.H) m cp 0

/-- `local_borehole_thermal_resistance` (l. 731): `1 / np.trace(1 / self._Rd)`. -/
def localResistance : ℝ := 1 / (t.G 0 0 + t.G 1 1)

end UTube

end Verif.Pipe
