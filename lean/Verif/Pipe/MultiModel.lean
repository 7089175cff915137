import Verif.Tac
import Mathlib.Analysis.SpecialFunctions.ExpDeriv
import Mathlib.LinearAlgebra.Matrix.NonsingularInverse
import Mathlib.Data.Matrix.ColumnRowPartitioned
import Mathlib.Data.Real.Sign

/-!
# Model of `pipes.MultipleUTube` and `pipes.IndependentMultipleUTube`

Models `pygfunction/pipes.py`: `MultipleUTube` (l. 1767-2220), `IndependentMultipleUTube` (l. 2223-2501) and the
methods of `_BasePipe` they inherit: `coefficients_outlet_temperature` (l. 347-436), `coefficients_temperature`
(l. 438-529), `coefficients_borehole_heat_extraction_rate` (l. 531-598),
`coefficients_fluid_heat_extraction_rate` (l. 600-667), `coefficients_inlet_temperature` (l. 287-345).

The `2 * nPipes` pipes are indexed by `Fin n ⊕ Fin n`: `inl i` is pipe `i`, `inr i` is pipe `i + nPipes`.

Simplifications: floats are real (eigenvalues: complex) numbers; `np.linalg.eig` and `np.linalg.inv` enter through
their contract `Eig.Of`; the `LinAlgError` of `np.linalg.solve` and `np.linalg.inv` is `none`; the caches are not part of this model.
-/

noncomputable section

namespace Verif.Pipe.Multi

open Matrix

/-- Pipes of a borehole with `n` U-tubes. -/
abbrev P (n : ℕ) := Fin n ⊕ Fin n

/-- `config`; any other string raises. -/
inductive Config
  | parallel
  | series
deriving DecidableEq

/-- What `_format_inputs`, `_flow_direction`, `_continuity_condition_head` and `_pipe_connectivity` provide for a
flow rate: `f_fd`, `f_fu`, `c_in`, `c_fu`, `d_fu`, the capacity flow rates `_m_flow_pipe * _cp_pipe` and
`abs(_m_flow_in) * _cp_in`. -/
structure Conn (n ni no : ℕ) where
  fd : Matrix (P n) (Fin n) ℝ
  fu : Matrix (P n) (Fin n) ℝ
  cin : Matrix (Fin n) (Fin ni) ℝ
  cfu : Matrix (Fin n) (Fin n) ℝ
  dfu : Matrix (Fin no) (Fin n) ℝ
  mcp : P n → ℝ
  mcpIn : Fin ni → ℝ

/-- `_is_reversed` (l. 2212). -/
def reversed (reversible : Bool) (m : ℝ) : Bool := open Classical in decide (m < 0) && reversible

/-- Flow rate of each pipe, before the sign (l. 2198-2205). -/
def pipeFlow (c : Config) (n : ℕ) (m : ℝ) : ℝ :=
  match c with
  | .parallel => |m| / n
  | .series => |m|

/-- `_m_flow_pipe` (l. 2206-2207). -/
def mFlowPipe (c : Config) (n : ℕ) (m : ℝ) : P n → ℝ
  | .inl _ => Real.sign m * pipeFlow c n m
  | .inr _ => Real.sign m * (-pipeFlow c n m)

/-- `c_in` (l. 1928-1945). -/
def headIn (c : Config) (n : ℕ) (rev : Bool) : Matrix (Fin n) (Fin 1) ℝ :=
  fun i _ => match c with
    | .parallel => 1
    | .series => if rev then (if (i : ℕ) + 1 = n then 1 else 0) else (if (i : ℕ) = 0 then 1 else 0)

/-- `c_fu` (l. 1928-1945): `np.eye(n, k=+1)` has ones at `j = i + 1`, `np.eye(n, k=-1)` at `j = i - 1`. -/
def headUp (c : Config) (n : ℕ) (rev : Bool) : Matrix (Fin n) (Fin n) ℝ :=
  fun i j => match c with
    | .parallel => 0
    | .series => if rev then (if (j : ℕ) = i + 1 then 1 else 0) else (if (j : ℕ) + 1 = i then 1 else 0)

/-- `_pipe_connectivity` (l. 2117-2135). -/
def headOut (c : Config) (n : ℕ) (m cp : ℝ) (rev : Bool) : Matrix (Fin 1) (Fin n) ℝ :=
  fun _ j => match c with
    | .parallel => |mFlowPipe c n m (.inl j)| * cp / ∑ k : Fin n, |mFlowPipe c n m (.inl k)| * cp
    | .series => if rev then (if (j : ℕ) = 0 then 1 else 0) else (if (j : ℕ) + 1 = n then 1 else 0)

/-- `_flow_direction` (l. 1992-2011), downward pipes. -/
def dirDown (n : ℕ) (rev : Fin n → Bool) : Matrix (P n) (Fin n) ℝ
  | .inl i, j => if i = j ∧ rev j = false then 1 else 0
  | .inr i, j => if i = j ∧ rev j = true then 1 else 0

/-- `_flow_direction`, upward pipes. -/
def dirUp (n : ℕ) (rev : Fin n → Bool) : Matrix (P n) (Fin n) ℝ
  | .inl i, j => if i = j ∧ rev j = true then 1 else 0
  | .inr i, j => if i = j ∧ rev j = false then 1 else 0

/-- `MultipleUTube` with flow rate `m`. -/
def multiple (c : Config) (n : ℕ) (reversible : Bool) (m cp : ℝ) : Conn n 1 1 where
  fd := dirDown n fun _ => reversed reversible m
  fu := dirUp n fun _ => reversed reversible m
  cin := headIn c n (reversed reversible m)
  cfu := headUp c n (reversed reversible m)
  dfu := headOut c n m cp (reversed reversible m)
  mcp := fun i => mFlowPipe c n m i * cp
  mcpIn := fun _ => |m| * cp

/-- `IndependentMultipleUTube` with a flow rate and a heat capacity for each U-tube (l. 2332-2501; the formatting of a scalar
heat capacity into one per U-tube and the length checks are omitted). -/
def independent (n : ℕ) (reversible : Bool) (m cp : Fin n → ℝ) : Conn n n n where
  fd := dirDown n fun i => reversed reversible (m i)
  fu := dirUp n fun i => reversed reversible (m i)
  cin := 1
  cfu := 0
  dfu := 1
  mcp := fun i => match i with
    | .inl i => m i * cp i
    | .inr i => -m i * cp i
  mcpIn := fun i => |m i| * cp i

/-- `_A` (l. 2164-2167). -/
def odeA {n : ℕ} (Rd : Matrix (P n) (P n) ℝ) (mcp : P n → ℝ) : Matrix (P n) (P n) ℝ :=
  fun i j => if i = j then -(1 / (Rd i i * mcp i)) - ∑ k ∈ Finset.univ.erase i, 1 / (Rd i k * mcp i)
    else 1 / (Rd i j * mcp i)

/-- `_sumA` (l. 2168). -/
def sumA {n : ℕ} (A : Matrix (P n) (P n) ℝ) : P n → ℝ := fun i => ∑ j, A i j

/-- `_L`, `_V`, `_Vm1` (l. 2170-2172). -/
structure Eig (n : ℕ) where
  L : P n → ℂ
  V : Matrix (P n) (P n) ℂ
  Vm1 : Matrix (P n) (P n) ℂ

/-- Contract of `np.linalg.eig` and `np.linalg.inv`. -/
structure Eig.Of {n : ℕ} (e : Eig n) (A : Matrix (P n) (P n) ℝ) : Prop where
  eig : A.map (↑) * e.V = e.V * diagonal e.L
  inv : e.V * e.Vm1 = 1

/-- `_general_solution`, `a_f0` (l. 2064-2065). -/
def genF0 {n : ℕ} (e : Eig n) (z : ℝ) : Matrix (P n) (P n) ℝ :=
  fun i j => (∑ k, e.V i k * Complex.exp (z * e.L k) * e.Vm1 k j).re

/-- `_general_solution`, `a_b` (l. 2068-2074), segment `u` between the edges `zu u` and `zu (u + 1)`. -/
def genB {n : ℕ} (A : Matrix (P n) (P n) ℝ) (e : Eig n) (zu : ℕ → ℝ) (z : ℝ) (i : P n) (u : ℕ) : ℝ :=
  (∑ k, (e.V i k * (1 / e.L k)) * (∑ l, e.Vm1 k l * sumA A l) *
    (Complex.exp (e.L k * (max (z - zu (u + 1)) 0 : ℝ)) - Complex.exp (e.L k * (max (z - zu u) 0 : ℝ)))).re

/-- `np.linalg.solve(M, R)`. -/
def solve {n : ℕ} {ι : Type*} (M : Matrix (Fin n) (Fin n) ℝ) (R : Matrix (Fin n) ι ℝ) : Option (Matrix (Fin n) ι ℝ) :=
  open Classical in if IsUnit M.det then some (M⁻¹ * R) else none

/-- `ImI` (l. 425-427). -/
def ImI (n : ℕ) : Matrix (Fin n) (P n) ℝ := fromCols 1 (-1)

/-- Inputs of the inherited methods: connectivity and general solution with `k` segments, borehole length. -/
structure Bore (n ni no k : ℕ) where
  conn : Conn n ni no
  f0 : ℝ → Matrix (P n) (P n) ℝ
  fb : ℝ → Matrix (P n) (Fin k) ℝ
  H : ℝ

namespace Bore
variable {n ni no k : ℕ} (b : Bore n ni no k)

/-- `f_fu + f_fd @ c_fu` (l. 428, 524). -/
def B : Matrix (P n) (Fin n) ℝ := b.conn.fu + b.conn.fd * b.conn.cfu

/-- `np.linalg.solve(ImI @ e_f0 @ B, -ImI)` (l. 428, 525). -/
def upSolve : Option (Matrix (Fin n) (P n) ℝ) := solve (ImI n * b.f0 b.H * b.B) (-ImI n)

/-- `coefficients_outlet_temperature` (l. 428-430). -/
def outletCoef : Option (Matrix (Fin no) (Fin ni) ℝ × Matrix (Fin no) (Fin k) ℝ) :=
  b.upSolve.map fun S => (b.conn.dfu * S * b.f0 b.H * b.conn.fd * b.conn.cin, b.conn.dfu * S * b.fb b.H)

/-- `coefficients_temperature` (l. 524-527). -/
def tempCoef (z : ℝ) : Option (Matrix (P n) (Fin ni) ℝ × Matrix (P n) (Fin k) ℝ) :=
  b.upSolve.map fun S => (b.f0 z * (1 + b.B * S * b.f0 b.H) * b.conn.fd * b.conn.cin,
    b.f0 z * (b.B * S) * b.fb b.H + b.fb z)

/-- `get_outlet_temperature`. -/
def outletT (Tin : Fin ni → ℝ) (Tb : Fin k → ℝ) : Option (Fin no → ℝ) :=
  b.outletCoef.map fun c => c.1 *ᵥ Tin + c.2 *ᵥ Tb

/-- `get_temperature`. -/
def temperature (Tin : Fin ni → ℝ) (Tb : Fin k → ℝ) (z : ℝ) : Option (P n → ℝ) :=
  (b.tempCoef z).map fun c => c.1 *ᵥ Tin + c.2 *ᵥ Tb

/-- `coefficients_borehole_heat_extraction_rate` (l. 577-591), segment `v`. -/
def heatCoef (zu : ℕ → ℝ) (v : ℕ) : Option ((Fin ni → ℝ) × (Fin k → ℝ)) :=
  (b.tempCoef (zu (v + 1))).bind fun c1 => (b.tempCoef (zu v)).map fun c0 =>
    (b.conn.mcp ᵥ* (c1.1 - c0.1), b.conn.mcp ᵥ* (c1.2 - c0.2))

/-- `get_borehole_heat_extraction_rate`, segment `v`. -/
def segmentHeat (zu : ℕ → ℝ) (Tin : Fin ni → ℝ) (Tb : Fin k → ℝ) (v : ℕ) : Option ℝ :=
  (b.heatCoef zu v).map fun c => c.1 ⬝ᵥ Tin + c.2 ⬝ᵥ Tb

end Bore

/-- `coefficients_fluid_heat_extraction_rate` (l. 653-660); one outlet for each inlet. -/
def Bore.fluidCoef {n ni k : ℕ} (b : Bore n ni ni k) : Option (Matrix (Fin ni) (Fin ni) ℝ × Matrix (Fin ni) (Fin k) ℝ) :=
  b.outletCoef.map fun c => (-diagonal b.conn.mcpIn + diagonal b.conn.mcpIn * c.1, diagonal b.conn.mcpIn * c.2)

/-- `get_fluid_heat_extraction_rate`. -/
def Bore.fluidHeat {n ni k : ℕ} (b : Bore n ni ni k) (Tin : Fin ni → ℝ) (Tb : Fin k → ℝ) : Option (Fin ni → ℝ) :=
  b.fluidCoef.map fun c => c.1 *ᵥ Tin + c.2 *ᵥ Tb

/-- The borehole: connectivity, delta-circuit resistances, eigenvalue decomposition, segment edges. -/
def mkBore {n ni no : ℕ} (k : ℕ) (c : Conn n ni no) (Rd : Matrix (P n) (P n) ℝ) (e : Eig n) (zu : ℕ → ℝ) (H : ℝ) :
    Bore n ni no k where
  conn := c
  f0 := genF0 e
  fb := fun z i u => genB (odeA Rd c.mcp) e zu z i u
  H := H

end Verif.Pipe.Multi
