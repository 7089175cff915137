import Verif.Net.TopoModel
import Mathlib.Data.Matrix.Block
import Mathlib.LinearAlgebra.Matrix.NonsingularInverse
import Mathlib.Data.Real.Basic

/-!
# Model of the coefficient methods of `networks.Network`

Models `pygfunction/networks.py`: `_format_inputs` (l. 1226-1295), `_initialize_coefficients_connectivity`
(l. 1116-1144), `_coefficients_mixing` (l. 1086-1114), the seven `coefficients_*` methods
(l. 571-1084) without their cache (the cache is modelled in `CacheModel`), the `get_*` methods
(l. 106-569) and `network_thermal_resistance` (l. 1659-1702).

Simplifications: numbers are exact reals; `np.linalg.solve` and `np.linalg.inv` succeed exactly
on non-singular matrices; the borehole models (`pipes`) are arbitrary functions of the flow rate
and heat capacity, with the number of segments per borehole fixed (`ns`), so the formatting of
`nSegments` and `segment_ratios` is modelled in `InputModel`.
-/

noncomputable section

namespace Verif.Net

open Matrix

variable {n : ℕ} {ns : Fin n → ℕ}

/-- Index of a borehole segment in the concatenated vector of wall temperatures. -/
abbrev SegIdx (ns : Fin n → ℕ) := (i : Fin n) × Fin (ns i)

/-- Borehole model with `m` segments as seen by the network: coefficients of
`pipe.coefficients_outlet_temperature` and `pipe.coefficients_borehole_heat_extraction_rate` for
a flow rate and a heat capacity (one inlet per borehole). -/
structure Pipe (m : ℕ) where
  outA : ℝ → ℝ → ℝ
  outB : ℝ → ℝ → Fin m → ℝ
  heatA : ℝ → ℝ → Fin m → ℝ
  heatB : ℝ → ℝ → Matrix (Fin m) (Fin m) ℝ

/-- `pipes.py` l. 653-659: `pipe.coefficients_fluid_heat_extraction_rate`, inlet coefficient. -/
def Pipe.fluidA {m : ℕ} (p : Pipe m) (q cp : ℝ) : ℝ := -(|q| * cp) + |q| * cp * p.outA q cp

/-- `pipes.py` l. 655-660: `pipe.coefficients_fluid_heat_extraction_rate`, wall coefficients. -/
def Pipe.fluidB {m : ℕ} (p : Pipe m) (q cp : ℝ) : Fin m → ℝ := fun s => |q| * cp * p.outB q cp s

/-- Formatted inputs: flow rate of each circuit, direction, heat capacity (l. 1226-1274). -/
structure Formatted where
  mIn : List ℝ
  rev : Bool
  cp : ℝ

/-- `np.tile`/length check of l. 1232-1238 and l. 1258-1267. -/
def formatFlow (nInlets : ℕ) (m : List ℝ) : Except Err (List ℝ) :=
  match m with
  | [a] => .ok (List.replicate nInlets (a / nInlets))
  | _ => if m.length = nInlets then .ok m else .error .value

/-- Heat capacity: l. 1258-1267; all circuits must have the same value. -/
def formatCp (nInlets : ℕ) (cp : List ℝ) : Except Err ℝ :=
  match cp with
  | [] => .error .value
  | [a] => .ok a
  | a :: l =>
    if (a :: l).length ≠ nInlets then .error .value
    else if ∀ b ∈ a :: l, b = a then .ok a else .error .value

open Classical in
/-- `Network._format_inputs` (l. 1230-1274).  A scalar argument is a list of one element
(`np.atleast_1d`). -/
def format (t : Topology) (m cp : List ℝ) : Except Err Formatted :=
  match formatFlow t.nInlets m with
  | .error e => .error e
  | .ok mIn =>
    if ∀ a ∈ m, 0 ≤ a then
      match formatCp t.nInlets cp with
      | .error e => .error e
      | .ok c => .ok ⟨mIn, false, c⟩
    else if ∀ a ∈ m, a ≤ 0 then
      match formatCp t.nInlets cp with
      | .error e => .error e
      | .ok c => .ok ⟨mIn, true, c⟩
    else .error .value

/-- Mass flow rate of borehole `i` (l. 1270-1271). -/
def mBore (t : Topology) (f : Formatted) (i : ℕ) : ℝ := f.mIn.getD (t.iCircuit.getD i 0) 0

/-- Inlets and outlets in the direction of flow (l. 1240-1251). -/
def flowInlets (t : Topology) (f : Formatted) : List ℕ := if f.rev then t.iOutlets else t.iInlets
def flowOutlets (t : Topology) (f : Formatted) : List ℕ := if f.rev then t.iInlets else t.iOutlets

/-- Connectivity vector `c_in` (l. 1128-1131 and 1136-1139). -/
def cIn (n : ℕ) (inlets : List ℕ) : Fin n → ℝ := fun i => if (i : ℕ) ∈ inlets then 1 else 0

/-- Connectivity matrix `c_out`, positive direction (l. 1129, 1132-1134). -/
def cOutPos (n : ℕ) (c : List ℤ) : Matrix (Fin n) (Fin n) ℝ :=
  fun i j => if c[(i : ℕ)]? = some ((j : ℕ) : ℤ) then 1 else 0

/-- Connectivity matrix `c_out`, negative direction (l. 1137, 1140-1142). -/
def cOutNeg (n : ℕ) (c : List ℤ) : Matrix (Fin n) (Fin n) ℝ :=
  fun i j => if c[(j : ℕ)]? = some ((i : ℕ) : ℤ) then 1 else 0

/-- Connectivity matrix in the direction of flow. -/
def cOut (n : ℕ) (t : Topology) (f : Formatted) : Matrix (Fin n) (Fin n) ℝ :=
  if f.rev then cOutNeg n t.c else cOutPos n t.c

/-- `np.linalg.solve(M, R)`: `none` is the `LinAlgError` of a singular matrix. -/
def solve {ι : Type*} (M : Matrix (Fin n) (Fin n) ℝ) (R : Matrix (Fin n) ι ℝ) : Option (Matrix (Fin n) ι ℝ) :=
  open Classical in if IsUnit M.det then some (M⁻¹ * R) else none

/-- Coefficients `(a_in, a_b)` of a vector of outputs: `a_in` multiplies the network inlet
temperature (one column), `a_b` the wall temperatures. -/
structure Coef (ι : Type*) (ns : Fin n → ℕ) where
  aIn : ι → ℝ
  aB : Matrix ι (SegIdx ns) ℝ

/-- Evaluation `a_in T_in + a_b T_b`, as in the `get_*` methods (l. 106-569). -/
def Coef.eval {ι : Type*} (k : Coef ι ns) (Tin : ℝ) (Tb : SegIdx ns → ℝ) : ι → ℝ :=
  fun i => k.aIn i * Tin + (k.aB *ᵥ Tb) i

/-- Column matrix. -/
def col (v : Fin n → ℝ) : Matrix (Fin n) (Fin 1) ℝ := fun i _ => v i

/-- Outlet coefficients of all boreholes, `block_diag` (l. 628-637, 708-717). -/
def diagA (a : Fin n → ℝ) : Matrix (Fin n) (Fin n) ℝ := Matrix.diagonal a
def blockB (b : (i : Fin n) → Fin (ns i) → ℝ) : Matrix (Fin n) (SegIdx ns) ℝ :=
  fun i s => if s.1 = i then b s.1 s.2 else 0

/-- `coefficients_inlet_temperature` (l. 624-642) for borehole outlet coefficients `a`, `b`. -/
def inletCoef (C : Matrix (Fin n) (Fin n) ℝ) (ci : Fin n → ℝ) (a : Fin n → ℝ)
    (b : (i : Fin n) → Fin (ns i) → ℝ) : Option (Coef (Fin n) ns) :=
  match solve (1 - C * diagA a) (col ci), solve (1 - C * diagA a) (C * blockB b) with
  | some x, some y => some ⟨fun i => x i 0, y⟩
  | _, _ => none

/-- `coefficients_outlet_temperature` (l. 704-722). -/
def outletCoef (C : Matrix (Fin n) (Fin n) ℝ) (ci : Fin n → ℝ) (a : Fin n → ℝ)
    (b : (i : Fin n) → Fin (ns i) → ℝ) : Option (Coef (Fin n) ns) :=
  match solve (1 - diagA a * C) (diagA a * col ci), solve (1 - diagA a * C) (blockB b) with
  | some x, some y => some ⟨fun i => x i 0, y⟩
  | _, _ => none

/-- The outlet coefficients of the boreholes at the formatted flow rates. -/
def boreA (t : Topology) (p : (i : Fin n) → Pipe (ns i)) (f : Formatted) : Fin n → ℝ :=
  fun i => (p i).outA (mBore t f i) f.cp
def boreB (t : Topology) (p : (i : Fin n) → Pipe (ns i)) (f : Formatted) : (i : Fin n) → Fin (ns i) → ℝ :=
  fun i => (p i).outB (mBore t f i) f.cp

/-- `Network.coefficients_inlet_temperature` (l. 571-649), no cache. -/
def netInlet (t : Topology) (p : (i : Fin n) → Pipe (ns i)) (f : Formatted) : Option (Coef (Fin n) ns) :=
  inletCoef (cOut n t f) (cIn n (flowInlets t f)) (boreA t p f) (boreB t p f)

/-- `Network.coefficients_outlet_temperature` (l. 651-729), no cache. -/
def netOutlet (t : Topology) (p : (i : Fin n) → Pipe (ns i)) (f : Formatted) : Option (Coef (Fin n) ns) :=
  outletCoef (cOut n t f) (cIn n (flowInlets t f)) (boreA t p f) (boreB t p f)

/-- `block_diag` of the columns of borehole heat extraction coefficients (l. 919-927). -/
def blockCol (q : (i : Fin n) → Fin (ns i) → ℝ) : Matrix (SegIdx ns) (Fin n) ℝ :=
  fun s i => if s.1 = i then q s.1 s.2 else 0

/-- `Network.coefficients_borehole_heat_extraction_rate` (l. 862-939) from the inlet coefficients:
`A @ b_in` and `A @ b_b + B` with block diagonal `A` and `B`. -/
def boreHeat (t : Topology) (p : (i : Fin n) → Pipe (ns i)) (f : Formatted) (k : Coef (Fin n) ns) :
    Coef (SegIdx ns) ns where
  aIn := blockCol (fun i => (p i).heatA (mBore t f i) f.cp) *ᵥ k.aIn
  aB := blockCol (fun i => (p i).heatA (mBore t f i) f.cp) * k.aB
    + Matrix.blockDiagonal' fun i => (p i).heatB (mBore t f i) f.cp

/-- `Network.coefficients_fluid_heat_extraction_rate` (l. 941-1018) from the inlet coefficients. -/
def fluidHeat (t : Topology) (p : (i : Fin n) → Pipe (ns i)) (f : Formatted) (k : Coef (Fin n) ns) :
    Coef (Fin n) ns where
  aIn := diagA (fun i => (p i).fluidA (mBore t f i) f.cp) *ᵥ k.aIn
  aB := diagA (fun i => (p i).fluidA (mBore t f i) f.cp) * k.aB
    + blockB fun i => (p i).fluidB (mBore t f i) f.cp

/-- `Network.coefficients_network_heat_extraction_rate` (l. 1020-1084) from the fluid heat
extraction rates. -/
def netHeat (k : Coef (Fin n) ns) : Coef Unit ns where
  aIn := fun _ => ∑ i, k.aIn i
  aB := fun _ s => ∑ i, k.aB i s

/-- `Network._coefficients_mixing` (l. 1110-1112): the weight of circuit `k` is assigned to the
`k`-th outlet borehole. -/
def mixing (outlets : List ℕ) (mIn : List ℝ) : ℕ → ℝ := fun i =>
  match outlets.findIdx? (· = i) with
  | some k => |mIn.getD k 0| / (mIn.map abs).sum
  | none => 0

/-- `Network.coefficients_network_outlet_temperature` (l. 797-860) from the borehole outlet
temperatures. -/
def netMixed (w : ℕ → ℝ) (k : Coef (Fin n) ns) : Coef Unit ns where
  aIn := fun _ => ∑ i : Fin n, w i * k.aIn i
  aB := fun _ s => ∑ i : Fin n, w i * k.aB i s

/-- `Network.coefficients_network_inlet_temperature` (l. 731-795): `[T_in] = a_qf Q + a_b T_b`;
`none` is the `LinAlgError` when the coefficient of the inlet temperature is zero. -/
def netFromHeat (k : Coef Unit ns) : Option (Coef Unit ns) :=
  open Classical in
  if k.aIn () = 0 then none
  else some ⟨fun _ => (k.aIn ())⁻¹, fun _ s => -((k.aIn ())⁻¹ * k.aB () s)⟩

/-- `network_thermal_resistance` (l. 1686-1698) from the two network coefficients. -/
def netResistance (Htot : ℝ) (out q : Coef Unit ns) : ℝ :=
  -0.5 * Htot * (1 + out.aIn ()) / q.aIn ()

end Verif.Net
