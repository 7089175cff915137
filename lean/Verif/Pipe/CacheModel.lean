import Verif.Pipe.UTubeModel
import Mathlib.Algebra.Order.Ring.Abs

/-!
# Model of the caching of coefficients in `pipes.SingleUTube` (and `Coaxial`)

Models the stateful part of `pygfunction/pipes.py`: `_initialize_stored_coefficients` (l. 810-820), `_set_stored_coefficients`,
`_get_stored_coefficients` (l. 822-831), `_check_model_variables` (l. 833-857), `_check_coefficients` (l. 859-880), `_update_model_variables`
(l. 1568-1606), the attributes set by `_format_inputs` (l. 1608-1656), `update_thermal_resistances` (l. 1327-1348) and the control flow of
`coefficients_inlet_temperature` (l. 321-345), `coefficients_outlet_temperature` (l. 1128-1167), `coefficients_temperature` (l. 1211-1325),
`coefficients_borehole_heat_extraction_rate` (l. 565-598), `coefficients_fluid_heat_extraction_rate` (l. 636-667).

Simplifications: scalar flow rates and heat capacities; `segment_ratios` is `None` or an array; the edges of the
segments are an arbitrary function of `nSegments` and `segment_ratios`.
-/

noncomputable section

namespace Verif.Pipe.Cache

/-- Arguments `m_flow_borehole`, `cp_f`, `nSegments`, `segment_ratios`. -/
structure Args where
  m : ℝ
  cp : ℝ
  n : ℕ
  ratios : Option (List ℝ)

/-- `np.abs(x - y) < np.abs(y) * tol` with `tol = 1e-6`; `y` is the stored value. -/
def near (x y : ℝ) : Bool := open Classical in decide (|x - y| < |y| * (1 / 10 ^ 6))

/-- Comparison of the ratios in `_check_model_variables` (l. 838-844). -/
def ratiosNear (stored arg : Option (List ℝ)) : Bool :=
  match stored, arg with
  | none, none => true
  | some s, some a => a.length == s.length && (List.zipWith near a s).all id
  | _, _ => false

/-- `_check_model_variables` and `_check_coefficients` (with `nSegments == stored_nSegments` checked first, the arrays have the same
length and both compare the same). -/
def hit (k a : Args) : Bool := near (a.m * a.cp) (k.m * k.cp) && a.n == k.n && ratiosNear k.ratios a.ratios

/-- Coefficients of one outlet or inlet. -/
abbrev Co := ℝ × (ℕ → ℝ)

/-- State: the pipe (delta-circuit resistances), `m_flow_borehole` and `cp_f` of the last `_format_inputs`, model variables with
their arguments, stored coefficients of methods 3, 4, 6 and 7 with their arguments. -/
structure St where
  t : UTube
  f : Option (ℝ × ℝ) := none
  mv : Option (Args × UPar) := none
  s3 : Option (Args × Co) := none
  s4 : Option (Args × Co) := none
  s6 : Option (Args × ((ℕ → ℝ) × (ℕ → ℕ → ℝ))) := none
  s7 : Option (Args × Co) := none

def lookup {X : Type*} (s : Option (Args × X)) (a : Args) : Option X :=
  match s with
  | some (k, v) => if hit k a then some v else none
  | none => none

/-- `_check_model_variables`: the model variables after the check. -/
def checkMv (a : Args) (s : St) : UPar × St :=
  match lookup s.mv a with
  | some p => (p, s)
  | none => (s.t.par a.m a.cp, { s with f := some (a.m, a.cp), mv := some (a, s.t.par a.m a.cp) })

variable (edges : ℕ → Option (List ℝ) → ℕ → ℝ)

/-- Outlet coefficients from model variables. -/
def outletOf (p : UPar) (a : Args) : Co := (p.outA, fun u => p.outB (edges a.n a.ratios) u)

/-- `coefficients_outlet_temperature`. -/
def callOutlet (a : Args) (s : St) : Co × St :=
  match lookup s.s4 a with
  | some v => (v, s)
  | none =>
    let r := checkMv a s
    (outletOf edges r.1 a, { r.2 with s4 := some (a, outletOf edges r.1 a) })

/-- Temperature coefficients from model variables and `_iInlet`. -/
def tempOf (p : UPar) (i0 : Fin 2) (a : Args) (z : ℝ) : (Fin 2 → ℝ) × (Fin 2 → ℕ → ℝ) :=
  (fun i => if i = i0 then p.inDown z else p.inUp z,
   fun i u => if i = i0 then p.wallDown (edges a.n a.ratios) z u else p.wallUp (edges a.n a.ratios) z u)

/-- `coefficients_temperature` (not stored): `_iInlet` is the attribute left by the last `_format_inputs`; `none` if there is none. -/
def callTemp (a : Args) (s : St) : Option (ℝ → (Fin 2 → ℝ) × (Fin 2 → ℕ → ℝ)) × St :=
  let r := checkMv a s
  (r.2.f.map fun f => tempOf edges r.1 (s.t.iInlet f.1) a, r.2)

/-- `mcp @ (aTf[1:] - aTf[:-1])` (l. 577-591). -/
def boreOf (m cp : ℝ) (a : Args) (T : ℝ → (Fin 2 → ℝ) × (Fin 2 → ℕ → ℝ)) : (ℕ → ℝ) × (ℕ → ℕ → ℝ) :=
  (fun v => ∑ i, UTube.mFlowPipe m i * cp * ((T (edges a.n a.ratios (v + 1))).1 i - (T (edges a.n a.ratios v)).1 i),
   fun v u => ∑ i, UTube.mFlowPipe m i * cp * ((T (edges a.n a.ratios (v + 1))).2 i u - (T (edges a.n a.ratios v)).2 i u))

/-- `coefficients_borehole_heat_extraction_rate`: `_m_flow_pipe` and `_cp_pipe` are read after `_format_inputs`, before the
temperatures. -/
def callBore (a : Args) (s : St) : Option ((ℕ → ℝ) × (ℕ → ℕ → ℝ)) × St :=
  match lookup s.s6 a with
  | some v => (some v, s)
  | none =>
    let r := callTemp edges a { s with f := some (a.m, a.cp) }
    match r.1 with
    | some T => (some (boreOf edges a.m a.cp a T), { r.2 with s6 := some (a, boreOf edges a.m a.cp a T) })
    | none => (none, r.2)

/-- `c_in + c_out @ b_in`, `c_out @ b_b` with `MCP = np.abs(self._m_flow_in) * self._cp_in` (l. 653-660). -/
def fluidOf (m cp : ℝ) (o : Co) : Co := (-(|m| * cp) + |m| * cp * o.1, fun u => |m| * cp * o.2 u)

/-- `coefficients_fluid_heat_extraction_rate`: `_m_flow_in`, `_cp_in` are read after the call of the outlet coefficients. -/
def callFluid (a : Args) (s : St) : Option Co × St :=
  match lookup s.s7 a with
  | some v => (some v, s)
  | none =>
    let r := callOutlet edges a { s with f := some (a.m, a.cp) }
    match r.2.f with
    | some f => (some (fluidOf f.1 f.2 r.1), { r.2 with s7 := some (a, fluidOf f.1 f.2 r.1) })
    | none => (none, r.2)

/-- `np.linalg.inv` of the matrix with one element; `none` is the `LinAlgError`. -/
def invOf (c : Co) : Option Co := open Classical in if c.1 = 0 then none else some (c.1⁻¹, fun u => -(c.1⁻¹ * c.2 u))

/-- `coefficients_inlet_temperature`; nothing is stored when the inverse raises. -/
def callInlet (a : Args) (s : St) : Option Co × St :=
  match lookup s.s3 a with
  | some v => (some v, s)
  | none =>
    let r := callFluid edges a s
    match r.1.bind invOf with
    | some v => (some v, { r.2 with s3 := some (a, v) })
    | none => (none, r.2)

/-- Public methods. -/
inductive Call
  | inlet (a : Args)
  | outlet (a : Args)
  | temp (a : Args)
  | bore (a : Args)
  | fluid (a : Args)
  /-- `update_thermal_resistances` giving the pipe new resistances. -/
  | update (t : UTube)

/-- State after a call; `update_thermal_resistances` clears the store but keeps the attributes of `_format_inputs`. -/
def step (s : St) : Call → St
  | .inlet a => (callInlet edges a s).2
  | .outlet a => (callOutlet edges a s).2
  | .temp a => (callTemp edges a s).2
  | .bore a => (callBore edges a s).2
  | .fluid a => (callFluid edges a s).2
  | .update t => { t := t, f := s.f }

/-- A new object (`nan` compares with nothing). -/
def new (t : UTube) : St := { t := t }

/-- State after a history of calls. -/
def run (t : UTube) (hist : List Call) : St := hist.foldl (step edges) (new t)

end Verif.Pipe.Cache
