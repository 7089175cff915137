import Verif.Pipe.UTubeModel
import Verif.Pipe.MultiModel
import Verif.Bore.Model

/-!
# Model of the `get_*` methods of pipes and networks

Models `pygfunction/pipes.py`: `_BasePipe.get_temperature` (l. 54-97), `get_inlet_temperature` (l. 99-137), `get_outlet_temperature` (l. 139-177), `get_borehole_heat_extraction_rate`
(l. 179-215), `get_fluid_heat_extraction_rate` (l. 217-253), `get_total_heat_extraction_rate` (l. 255-285), with the coefficients of `UTubeModel` and `MultiModel`; and
`pygfunction/networks.py`: the `get_*` methods of `Network` (l. 250-569) with arbitrary coefficients.

Temperatures and rates are numbers or one-dimensional arrays (lists).  Simplifications: the flow rate and the heat capacity are those of a given operating point; depths are in a one-dimensional
array; exceptions are `ValueError` (shapes; `IndexError` in the single U-tube), `LinAlgError` and the `ZeroDivisionError` of
`1. / nSegments`.
-/

noncomputable section

namespace Verif.Pipe.Get

open Matrix

/-- A number, or a one-dimensional array. -/
inductive Py
  | num (x : ℝ)
  | arr (l : List ℝ)

/-- `np.atleast_1d`. -/
def Py.toList : Py → List ℝ
  | .num x => [x]
  | .arr l => l

/-- `np.isscalar`. -/
def Py.isNum : Py → Bool
  | .num _ => true
  | .arr _ => false

inductive Err
  | value
  | linalg
  | zeroDivision
  deriving DecidableEq

/-- `M @ v`. -/
def matVec {r : Type*} {c : ℕ} (M : Matrix r (Fin c) ℝ) (v : List ℝ) : Except Err (r → ℝ) :=
  if h : v.length = c then .ok fun i => ∑ j, M i j * v.get (j.cast h.symm) else .error .value

/-- `a @ x + b @ y`. -/
def affine {r : Type*} {c k : ℕ} (M : Matrix r (Fin c) ℝ × Matrix r (Fin k) ℝ) (x y : List ℝ) : Except Err (r → ℝ) := do
  let u ← matVec M.1 x
  let v ← matVec M.2 y
  return fun i => u i + v i

/-- `.item()`. -/
def item : List ℝ → Except Err Py
  | [x] => .ok (.num x)
  | _ => .error .value

/-- The result, a number if the argument `p` is a number (l. 133-136, 173-176, 249-252). -/
def like (p : Py) (l : List ℝ) : Except Err Py := if p.isNum then item l else .ok (.arr l)

def orLinalg {X : Type*} : Option X → Except Err X
  | some x => .ok x
  | none => .error .linalg

/-- Segment edges with `nSegments` segments or given ratios (`Borehole._segment_edges`, l. 258-261 of `boreholes.py`). -/
def edges (H : ℝ) (n : ℕ) (q : Option (List ℝ)) (u : ℕ) : ℝ := (((q.getD (List.replicate n (1 / (n : ℝ)))).take u).sum) * H

/-- Number of segments of these edges. -/
def count (n : ℕ) (q : Option (List ℝ)) : ℕ := (q.getD (List.replicate n (1 / (n : ℝ)))).length

/-- `1. / nSegments` for an empty array of wall temperatures. -/
def checkSegs (n : ℕ) (q : Option (List ℝ)) : Except Err Unit := if n = 0 ∧ q.isNone then .error .zeroDivision else .ok ()

/-- A borehole with pipes `ι` and `ni` circuits at an operating point: coefficients for the outlet temperatures and for the temperatures at a depth, for any number of segments and edges;
heat capacity rates of the pipes and the circuits; length. -/
structure Tubes (ι : Type) (ni : ℕ) where
  outlet : (k : ℕ) → (ℕ → ℝ) → Option (Matrix (Fin ni) (Fin ni) ℝ × Matrix (Fin ni) (Fin k) ℝ)
  temp : (k : ℕ) → (ℕ → ℝ) → ℝ → Option (Matrix ι (Fin ni) ℝ × Matrix ι (Fin k) ℝ)
  mcp : ι → ℝ
  mcpIn : Fin ni → ℝ
  H : ℝ

/-- A single U-tube or a coaxial pipe. -/
def ofUTube (t : UTube) (m cp : ℝ) : Tubes (Fin 2) 1 where
  outlet := fun _ zu => some (fun _ _ => (t.par m cp).outA, fun _ u => (t.par m cp).outB zu u)
  temp := fun _ zu z => some (fun i _ => t.tempA m cp z i, fun i u => t.tempB zu m cp z i u)
  mcp := fun i => UTube.mFlowPipe m i * cp
  mcpIn := fun _ => |m| * cp
  H := t.H

/-- Several U-tubes, in parallel, in series or independent. -/
def ofMulti {n ni : ℕ} (c : Multi.Conn n ni ni) (Rd : Matrix (Multi.P n) (Multi.P n) ℝ) (e : Multi.Eig n) (H : ℝ) : Tubes (Multi.P n) ni where
  outlet := fun k zu => (Multi.mkBore k c Rd e zu H).outletCoef
  temp := fun k zu z => (Multi.mkBore k c Rd e zu H).tempCoef z
  mcp := c.mcp
  mcpIn := c.mcpIn
  H := H

section
variable {ι : Type} [Fintype ι] {ni : ℕ} (P : Tubes ι ni)

/-- `coefficients_fluid_heat_extraction_rate` (l. 653-660). -/
def Tubes.fluid (k : ℕ) (zu : ℕ → ℝ) : Option (Matrix (Fin ni) (Fin ni) ℝ × Matrix (Fin ni) (Fin k) ℝ) :=
  (P.outlet k zu).map fun c => (-diagonal P.mcpIn + diagonal P.mcpIn * c.1, diagonal P.mcpIn * c.2)

/-- `coefficients_inlet_temperature` (l. 330-338). -/
def Tubes.inlet (k : ℕ) (zu : ℕ → ℝ) : Option (Matrix (Fin ni) (Fin ni) ℝ × Matrix (Fin ni) (Fin k) ℝ) :=
  (P.fluid k zu).bind fun c => open Classical in if IsUnit c.1.det then some (c.1⁻¹, -(c.1⁻¹ * c.2)) else none

/-- `coefficients_borehole_heat_extraction_rate` (l. 577-591), segment `v`. -/
def Tubes.heat (k : ℕ) (zu : ℕ → ℝ) (v : Fin k) : Option ((Fin ni → ℝ) × (Fin k → ℝ)) :=
  (P.temp k zu (zu (v + 1))).bind fun c1 => (P.temp k zu (zu v)).map fun c0 => (P.mcp ᵥ* (c1.1 - c0.1), P.mcp ᵥ* (c1.2 - c0.2))

/-- All of an array of options, or the error. -/
def allSome {X : Type*} : List (Option X) → Option (List X)
  | [] => some []
  | x :: l => x.bind fun x => (allSome l).map (x :: ·)

/-- `get_outlet_temperature`. -/
def getOutlet (Tin Tb : Py) (q : Option (List ℝ)) : Except Err Py := do
  let tb := Tb.toList
  let n := tb.length
  checkSegs n q
  let c ← orLinalg (P.outlet (count n q) (edges P.H n q))
  let T ← affine c Tin.toList tb
  like Tin (List.ofFn T)

/-- `get_inlet_temperature`. -/
def getInlet (Q Tb : Py) (q : Option (List ℝ)) : Except Err Py := do
  let tb := Tb.toList
  let n := tb.length
  checkSegs n q
  let c ← orLinalg (P.inlet (count n q) (edges P.H n q))
  let T ← affine c Q.toList tb
  like Q (List.ofFn T)

/-- `get_fluid_heat_extraction_rate`. -/
def getFluid (Tin Tb : Py) (q : Option (List ℝ)) : Except Err Py := do
  let tb := Tb.toList
  let n := tb.length
  checkSegs n q
  let c ← orLinalg (P.fluid (count n q) (edges P.H n q))
  let Q ← affine c Tin.toList tb
  like Tin (List.ofFn Q)

/-- `get_total_heat_extraction_rate`: `np.sum` of a number or an array. -/
def getTotal (Tin Tb : Py) (q : Option (List ℝ)) : Except Err ℝ := do
  let Q ← getFluid P Tin Tb q
  return Q.toList.sum

/-- `get_borehole_heat_extraction_rate`: `T_b` is an array when `np.isscalar(T_b)` is asked (l. 206, 213). -/
def getHeat (Tin Tb : Py) (q : Option (List ℝ)) : Except Err Py := do
  let Tb := Py.arr Tb.toList
  let n := Tb.toList.length
  let k := count n q
  checkSegs n q
  let c ← orLinalg (allSome (List.ofFn (P.heat k (edges P.H n q))))
  let Q ← affine (r := Fin c.length) (fun v => (c.get v).1, fun v => (c.get v).2) Tin.toList Tb.toList
  like Tb (List.ofFn Q)

/-- `get_temperature`: at one depth an array over the pipes, at an array of depths one such array for each. -/
def getTemperature (z : List ℝ) (Tin Tb : Py) (q : Option (List ℝ)) : Except Err (List (ι → ℝ)) := do
  let tb := Tb.toList
  let n := tb.length
  checkSegs n q
  let c ← orLinalg (allSome (z.map (P.temp (count n q) (edges P.H n q))))
  c.mapM fun c => affine c Tin.toList tb

end

/-! ### Networks -/

/-- `np.tile(T_b, np.size(a_b, axis=1))` for a number. -/
def Py.tile (N : ℕ) : Py → List ℝ
  | .num x => List.replicate N x
  | .arr l => l

/-- `get_inlet_temperature`, `get_outlet_temperature`, `get_borehole_heat_extraction_rate`, `get_fluid_heat_extraction_rate` of a network with `N` segments in all (l. 286-293, 331-338, 376-382,
420-426 of `networks.py`). -/
def netArray {r N : ℕ} (c : Matrix (Fin r) (Fin 1) ℝ × Matrix (Fin r) (Fin N) ℝ) (Tin Tb : Py) : Except Err Py := do
  let T ← affine c Tin.toList (Tb.tile N)
  return .arr (List.ofFn T)

/-- `get_network_inlet_temperature`, `get_network_outlet_temperature`, `get_network_heat_extraction_rate` (l. 464-474, 512-522, 559-569). -/
def netNumber {N : ℕ} (c : Matrix (Fin 1) (Fin 1) ℝ × Matrix (Fin 1) (Fin N) ℝ) (x Tb : Py) : Except Err Py := do
  let T ← affine c x.toList (Tb.tile N)
  like x (List.ofFn T)

/-- `coefficients_network_inlet_temperature` from those of the heat extraction rate (l. 778-788). -/
def netInlet {N : ℕ} (c : Matrix (Fin 1) (Fin 1) ℝ × Matrix (Fin 1) (Fin N) ℝ) : Option (Matrix (Fin 1) (Fin 1) ℝ × Matrix (Fin 1) (Fin N) ℝ) :=
  open Classical in if IsUnit c.1.det then some (c.1⁻¹, -(c.1⁻¹ * c.2)) else none

end Verif.Pipe.Get
