import Verif.Sol.SimModel
import Verif.Bore.DupModel

/-!
# Model of the construction of `gFunction`

Models `pygfunction/gfunction.py`: `gFunction.__init__` (l. 247-282), `_format_inputs` (l. 1402-1461), `_check_inputs` (l. 1463-1505), the times of `evaluate_g_function`
(l. 469-473), `from_static_params` (l. 420-452), the deprecated functions `uniform_heat_extraction`, `uniform_temperature`, `equal_inlet_temperature` and
`mixed_inlet_temperature` (l. 1575-1591, 1682-1700, 1788-1809, 1917-1935); `pygfunction/solvers/_base_solver.py`: the mass flow rates of `__init__` (l. 155-167) and
`_check_inputs` (l. 583, 590-602, 612-617); `pygfunction/solvers/equivalent.py`: `_check_solver_specific_inputs` (l. 820-845); and `pygfunction/networks.py`:
`from_static_params` (l. 192-196, 247-248).

Simplifications: exact arithmetic; an exception is `none` and warnings are dropped.  Boreholes and networks are given as such objects and the time, the diffusivity and the options other than
`nSegments` and `segment_ratios` have the expected types.  Text arguments are compared to the acceptable texts exactly or up to case only, see `Str`.
A network is described by its boreholes, connectivity, stored mass flow rate and heat capacity, and the delta-circuit resistances `_Rd` of its pipes.
-/

noncomputable section

namespace Verif.Gf

open Bore Sol Classical

inductive BC where
  | UHTR
  | UBWT
  | MIFT
  deriving DecidableEq

inductive Method where
  | detailed
  | similarities
  | equivalent
  deriving DecidableEq

/-- A text argument: the text of `x`, the text of `x` written with other cases, or any other text. -/
inductive Str (α : Type) where
  | is (x : α)
  | cased (x : α)
  | other
  deriving DecidableEq

/-- `.lower()`, `.upper()`. -/
def Str.fold {α : Type} : Str α → Option α
  | .is x => some x
  | .cased x => some x
  | .other => none

/-- An optional number or array: `None`, a python `float`, a `np.floating`, an array of one or two dimensions. -/
inductive Val where
  | none
  | flt (x : ℝ)
  | npf (x : ℝ)
  | arr1 (v : List ℝ)
  | arr2 (v : List (List ℝ))

/-- A `Network`. -/
structure Net where
  b : List Borehole
  c : List ℤ
  m : Val
  cp : Val
  Rd : List (List ℝ)

/-- `nInlets`. -/
def Net.nInlets (n : Net) : ℕ := n.c.count (-1)

/-- Arguments of `gFunction`: a network or a list of boreholes (a single borehole is a list of one, l. 1408-1409). -/
structure Args where
  field : Net ⊕ List Borehole
  method : Str Method
  bc : Option (Str BC)
  mb : Val
  mn : Val
  cp : Val
  nSegments : NSeg
  ratios : Ratios

/-- The attributes of the object after `_format_inputs`. -/
structure State where
  network : Option Net
  boreholes : List Borehole
  bc : Str BC
  method : Str Method
  mb : Val
  mn : Val
  cp : Val

/-- `np.allclose(m_flow_borehole, m_flow_borehole[0])` (l. 1445-1447): for two dimensions, all rows are compared to the first row. -/
def equalFlows : Val → Option Bool
  | .none => some true
  | .flt _ => none
  | .npf _ => none
  | .arr1 [] => none
  | .arr1 (x :: xs) => some (decide (∀ y ∈ x :: xs, |y - x| ≤ 1 / 10 ^ 8 + 1 / 10 ^ 5 * |x|))
  | .arr2 [] => none
  | .arr2 (r :: rs) => some (decide (∀ s ∈ r :: rs, allclose (1 / 10 ^ 5) s r))

/-- l. 1453-1455: shapes that differ raise. -/
def samePipes (Rd : List (List ℝ)) : Option Bool :=
  if ∀ r ∈ Rd, r.length = (Rd.headD []).length then some (decide (∀ r ∈ Rd, allclose (1 / 10 ^ 5) (Rd.headD []) r)) else none

/-- l. 1408-1434. -/
def assign (a : Args) : State :=
  match a.field with
  | .inl net =>
    let flows : Val × Val :=
      match a.mb, a.mn, net.m with
      | .none, .none, .flt x => (.none, .flt x)
      | .none, .none, .arr1 v => (.arr1 v, .none)
      | .none, .none, .arr2 v => (.arr2 v, .none)
      | mb, mn, _ => (mb, mn)
    let cp := match a.cp, net.cp with
      | .none, .flt x => .flt x
      | cp, _ => cp
    ⟨some net, net.b, a.bc.getD (.is .MIFT), a.method, flows.1, flows.2, cp⟩
  | .inr bs => ⟨none, bs, a.bc.getD (.is .UBWT), a.method, a.mb, a.mn, a.cp⟩

/-- l. 1437-1460: the `similarities` method instead of the `equivalent` method. -/
def switch (s : State) : Option State :=
  if s.bc = .is .MIFT ∧ s.method.fold = some .equivalent then
    match s.network with
    | none => none
    | some net =>
      if ¬ ∀ c ∈ net.c, c = -1 then some { s with method := .is .similarities }
      else
        match equalFlows s.mb with
        | none => none
        | some false => some { s with method := .is .similarities }
        | some true =>
          match samePipes net.Rd with
          | none => none
          | some false => some { s with method := .is .similarities }
          | some true => some s
  else some s

/-- Number of columns of a two-dimensional array. -/
def columns (v : List (List ℝ)) : ℕ := (v.headD []).length

/-- Conditions at l. 1480-1492. -/
def miftOk (s : State) (net : Net) : Prop :=
  ¬ (s.mn = .none ∧ s.mb = .none) ∧ ¬ (s.mn ≠ .none ∧ s.mb ≠ .none) ∧ s.cp ≠ .none ∧ ∀ v, s.mb = .arr2 v → columns v = net.nInlets

/-- `_check_inputs` (l. 1463-1505): the method and the boundary condition, or an exception. -/
def check (s : State) : Option (Method × BC) :=
  if s.boreholes = [] then none
  else if findDuplicates s.boreholes ≠ some [] then none
  else
    match s.bc, s.method with
    | .is .MIFT, .is m =>
      match s.network with
      | none => none
      | some net => if miftOk s net then some (m, .MIFT) else none
    | .is bc, .is m => some (m, bc)
    | _, _ => none

/-- The solver. -/
structure Solver where
  kind : Method
  bc : BC
  network : Option Net
  boreholes : List Borehole
  /-- `m_flow` -/
  flows : List (List ℝ)
  nMassFlow : ℕ
  cp : Val
  ns : List ℤ
  rs : List (List ℝ)

/-- l. 157-161: `m_flow` and `nMassFlow`; scalars have no `ndim`, or no first dimension. -/
def boreFlows : Val → Option (List (List ℝ) × ℕ)
  | .none => some ([], 0)
  | .flt _ => none
  | .npf _ => none
  | .arr1 v => some ([v], 0)
  | .arr2 v => some (v, v.length)

/-- l. 163-167: `m_flow` and `nMassFlow`. -/
def netFlows (st : List (List ℝ) × ℕ) : Val → List (List ℝ) × ℕ
  | .none => st
  | .flt x => ([[x]], st.2)
  | .npf x => ([[x]], st.2)
  | .arr1 v => (v.map fun x => [x], v.length)
  | .arr2 v => (v, v.length)

/-- `_check_solver_specific_inputs` of the `equivalent` solver (l. 820-845).  With mass flow rates of the boreholes, l. 832 reads the attribute `nBoreholes`, which is assigned later
(l. 344): `AttributeError`. -/
def equivalentOk (s : State) (bc : BC) (ns : List ℤ) (rs : List (List ℝ)) : Prop :=
  (∀ n ∈ ns, n = ns.headD 0) ∧ (∀ r ∈ rs, allclose (1 / 10 ^ 5) r (rs.headD [])) ∧ (∀ b ∈ s.boreholes, ¬ tilted b.tilt) ∧
    (bc = .MIFT → ∀ net, s.network = some net → (∀ c ∈ net.c, c = -1) ∧ s.mb = .none ∧ samePipes net.Rd = some true)

/-- Columns of `m_flow_borehole` (`_base_solver.py`, l. 600). -/
def columnsOk (s : State) (bc : BC) (rows : List (List ℝ)) : Prop := bc = .MIFT → s.mb ≠ .none → ∀ net, s.network = some net → columns rows = net.nInlets

/-- Construction of the solver. -/
def solver (s : State) (m : Method) (bc : BC) (nSegments : NSeg) (ratios : Ratios) : Option Solver :=
  match setup s.boreholes.length nSegments ratios, boreFlows s.mb with
  | some (ns, rs), some st =>
    if ¬ columnsOk s bc st.1 then none
    else if m = .equivalent ∧ ¬ equivalentOk s bc ns rs then none
    else
      let f := netFlows st s.mn
      some ⟨m, bc, s.network, s.boreholes, f.1, f.2, s.cp, ns, rs⟩
  | _, _ => none

/-- `gFunction.__init__` (l. 251-282). -/
def construct (a : Args) : Option Solver :=
  match switch (assign a) with
  | none => none
  | some s =>
    match check s with
    | none => none
    | some (m, bc) => solver s m bc a.nSegments a.ratios

/-- The times of `evaluate_g_function` (l. 469-473). -/
def times (t : List ℝ) : Option (List ℝ) :=
  let t := t.map fun x => max x 0
  if t.length = 1 ∨ ∀ p ∈ List.zip t t.tail, p.1 ≤ p.2 then some t else none

/-! ### Other constructions -/

/-- Fluid properties: the heat capacity as a function of the temperature (l. 428, `networks.py` l. 200). -/
abbrev HeatCapacity := ℝ → ℝ

/-- `Network.from_static_params`: the mass flow rate is stored as given and the heat capacity is the one at `fluid_temperature`; `Rd m T` are the delta-circuit resistances of the pipes for
the mass flow rate per circuit `m` and the temperature of the fluid. -/
def networkOfParams (cpOf : HeatCapacity) (Rd : ℝ → ℝ → List (List ℝ)) (bs : List Borehole) (c : Option (List ℤ)) (m T : ℝ) : Net :=
  let c' := c.getD (List.replicate bs.length (-1))
  ⟨bs, c', .flt m, .flt (cpOf T), Rd |m / (match c with | none => (bs.length : ℝ) | some c => (c.count (-1) : ℝ))| T⟩

/-- `gFunction.from_static_params` (l. 420-452): `m_flow_network` is a float (l. 194 needs it). -/
def fromParams (cpOf : HeatCapacity) (Rd : ℝ → ℝ → List (List ℝ)) (bs : List Borehole) (c : Option (List ℤ)) (m T : ℝ) (method : Str Method) (bc : Str BC)
    (nSegments : NSeg) (ratios : Ratios) : Option Solver :=
  match bc.fold with
  | none => none
  | some .MIFT => construct ⟨.inl (networkOfParams cpOf Rd bs c m T), method, some bc, .none, .flt m, .flt (cpOf 20), nSegments, ratios⟩
  | some _ => construct ⟨.inr bs, method, some bc, .none, .flt m, .none, nSegments, ratios⟩

/-- `use_similarities`. -/
def oldMethod (useSimilarities : Bool) : Str Method := if useSimilarities then .is .similarities else .is .detailed

/-- `uniform_heat_extraction` (l. 1575-1591); the default of `segment_ratios` is the function of `utilities`, `ratios` here. -/
def uniformHeatExtraction (bs : List Borehole) (sim : Bool) (ratios : Ratios) : Option Solver := construct ⟨.inr bs, oldMethod sim, some (.is .UHTR), .none, .none, .none, .int 1, ratios⟩

/-- `uniform_temperature` (l. 1682-1700). -/
def uniformTemperature (bs : List Borehole) (sim : Bool) (nSegments : NSeg) (ratios : Ratios) : Option Solver :=
  construct ⟨.inr bs, oldMethod sim, some (.is .UBWT), .none, .none, .none, nSegments, ratios⟩

/-- `m_flow_borehole*len(boreholes)` (l. 1789). -/
def Val.scale (k : ℝ) : Val → Val
  | .none => .none
  | .flt x => .flt (x * k)
  | .npf x => .npf (x * k)
  | .arr1 v => .arr1 (v.map (· * k))
  | .arr2 v => .arr2 (v.map fun r => r.map (· * k))

/-- `equal_inlet_temperature` (l. 1788-1809). -/
def equalInlet (bs : List Borehole) (Rd : List (List ℝ)) (m cp : Val) (sim : Bool) (nSegments : NSeg) (ratios : Ratios) : Option Solver :=
  construct ⟨.inl ⟨bs, List.replicate bs.length (-1), m.scale bs.length, cp, Rd⟩, oldMethod sim, some (.is .MIFT), .none, .none, .none, nSegments, ratios⟩

/-- `mixed_inlet_temperature` (l. 1917-1935): `m` and `cp` are the arguments `m_flow_network` and `cp_f`. -/
def mixedInlet (net : Net) (_m _cp : Val) (sim : Bool) (nSegments : NSeg) (ratios : Ratios) : Option Solver :=
  construct ⟨.inl net, oldMethod sim, some (.is .MIFT), .none, .none, .none, nSegments, ratios⟩

end Verif.Gf
