import Verif.Pipe.UTubeModel
import Verif.Pipe.MultiModel
import Mathlib.Analysis.SpecialFunctions.Trigonometric.DerivHyp

/-!
# Model of the general solution of `pipes.SingleUTube`

Models `pygfunction/pipes.py`: `SingleUTube._f1` ... `_F5` (l. 1658-1764), `_general_solution` (l. 1454-1525),
`_continuity_condition_head` (l. 1350-1396), `_flow_direction` (l. 1398-1452), `_pipe_connectivity` (l. 1527-1566).
These feed the methods of `_BasePipe` (`Multi.Bore`), which `SingleUTube` overrides with explicit formulas
(`UTubeModel`).

Simplifications: as in `UTubeModel`; one depth at a time.
-/

noncomputable section

namespace Verif.Pipe

open Real

namespace UPar
variable (p : UPar)

/-- `_f1` (l. 1668-1670). -/
def f1 (z : ℝ) : ℝ := exp (p.beta * z) * (cosh (p.gamma * z) - p.delta * sinh (p.gamma * z))

/-- `_f2` (l. 1682-1684). -/
def f2 (z : ℝ) : ℝ := exp (p.beta * z) * p.b12 / p.gamma * sinh (p.gamma * z)

/-- `_f3` (l. 1696-1698). -/
def f3 (z : ℝ) : ℝ := exp (p.beta * z) * (cosh (p.gamma * z) + p.delta * sinh (p.gamma * z))

/-- `_f4` (l. 1710-1713). -/
def f4 (z : ℝ) : ℝ :=
  exp (p.beta * z) * (p.b1 * cosh (p.gamma * z) - (p.delta * p.b1 + p.b2 * p.b12 / p.gamma) * sinh (p.gamma * z))

/-- `_f5` (l. 1725-1728). -/
def f5 (z : ℝ) : ℝ :=
  exp (p.beta * z) * (p.b2 * cosh (p.gamma * z) + (p.delta * p.b2 + p.b1 * p.b12 / p.gamma) * sinh (p.gamma * z))

/-- `_F4` (l. 1740-1746). -/
def F4 (z : ℝ) : ℝ :=
  exp (p.beta * z) / (p.beta ^ 2 - p.gamma ^ 2) *
    ((p.b1 * p.beta + (p.delta * p.b1 + p.b2 * p.b12 / p.gamma) * p.gamma) * cosh (p.gamma * z)
      + -(p.b1 * p.gamma + p.beta * (p.delta * p.b1 + p.b2 * p.b12 / p.gamma)) * sinh (p.gamma * z))

/-- `_F5` (l. 1758-1764). -/
def F5 (z : ℝ) : ℝ :=
  exp (p.beta * z) / (p.beta ^ 2 - p.gamma ^ 2) *
    ((p.b2 * p.beta - (p.delta * p.b2 + p.b1 * p.b12 / p.gamma) * p.gamma) * cosh (p.gamma * z)
      + -(p.b2 * p.gamma - p.beta * (p.delta * p.b2 + p.b1 * p.b12 / p.gamma)) * sinh (p.gamma * z))

end UPar

namespace UTube
variable (t : UTube)

/-- Index of a pipe: the first leg is pipe 0, the second one is pipe 1. -/
def leg : Multi.P 1 → Fin 2
  | .inl _ => 0
  | .inr _ => 1

/-- `_general_solution`, `a_f0` (l. 1501-1510). -/
def genF0 (m cp z : ℝ) : Matrix (Multi.P 1) (Multi.P 1) ℝ := fun i j =>
  if t.isReversed m then
    match i, j with
    | .inl _, .inl _ => (t.par m cp).f3 z
    | .inl _, .inr _ => -(t.par m cp).f2 z
    | .inr _, .inl _ => (t.par m cp).f2 z
    | .inr _, .inr _ => (t.par m cp).f1 z
  else
    match i, j with
    | .inl _, .inl _ => (t.par m cp).f1 z
    | .inl _, .inr _ => (t.par m cp).f2 z
    | .inr _, .inl _ => -(t.par m cp).f2 z
    | .inr _, .inr _ => (t.par m cp).f3 z

/-- `_general_solution`, `a_b` (l. 1512-1519). -/
def genB (zu : ℕ → ℝ) (m cp z : ℝ) (i : Multi.P 1) (u : ℕ) : ℝ :=
  if leg i = t.iInlet m then (t.par m cp).F4 (max (z - zu u) 0) - (t.par m cp).F4 (max (z - zu (u + 1)) 0)
  else -((t.par m cp).F5 (max (z - zu u) 0) - (t.par m cp).F5 (max (z - zu (u + 1)) 0))

/-- `_continuity_condition_head`, `_flow_direction`, `_pipe_connectivity`, and the capacity flow rates of
`_format_inputs`. -/
def conn (m cp : ℝ) : Multi.Conn 1 1 1 where
  fd := Multi.dirDown 1 fun _ => t.isReversed m
  fu := Multi.dirUp 1 fun _ => t.isReversed m
  cin := .of fun _ _ => 1
  cfu := 0
  dfu := .of fun _ _ => 1
  mcp := fun i => mFlowPipe m (leg i) * cp
  mcpIn := fun _ => |m| * cp

/-- What the methods of `_BasePipe` would use. -/
def base (zu : ℕ → ℝ) (m cp : ℝ) (k : ℕ) : Multi.Bore 1 1 1 k where
  conn := t.conn m cp
  f0 := t.genF0 m cp
  fb := fun z => .of fun i u => t.genB zu m cp z i u
  H := t.H

end UTube

end Verif.Pipe
