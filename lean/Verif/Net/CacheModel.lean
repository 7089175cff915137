import Verif.Net.FlowModel

/-!
# Model of the caching of coefficients in `networks.Network`

Models the stateful part of `pygfunction/networks.py`: `_initialize_stored_coefficients`
(l. 1146-1160), `_set_stored_coefficients`, `_get_stored_coefficients` (l. 1181-1194), `_check_coefficients`
(l. 1205-1224), `_check_mixing_coefficients` (l. 1196-1203), the stateful `_coefficients_mixing` (l. 1109-1114)
and the control flow of the seven `coefficients_*` methods (l. 571-1084).

The methods are modelled over an abstract `Machine` (what each method computes from formatted inputs) and
instantiated by `netMachine` with the numeric model of `FlowModel`.  Only calls that do not raise
are modelled, and `nSegments`, `segment_ratios` are fixed.
-/

noncomputable section

namespace Verif.Net

/-- What the methods compute: `A` arguments, `F` formatted inputs, `V` borehole-level coefficients,
`B` segment-level coefficients, `U` network-level coefficients, `W` mixing weights. -/
structure Machine (A F V B U W : Type*) where
  hit : A → A → Bool
  near : A → A → Bool
  fmt : A → F
  inlet : F → V
  outlet : F → V
  bore : F → V → B
  fluid : F → V → V
  sum : V → U
  inv : U → U
  mix : F → W
  comb : W → V → U

variable {A F V B U W : Type*}

/-- State of the object: the formatted inputs of the last `_format_inputs`, the stored coefficients of
each method with their arguments, and the stored mixing weights. -/
structure St (A F V B U W : Type*) where
  f : Option F := none
  sInlet : Option (A × V) := none
  sOutlet : Option (A × V) := none
  sNetIn : Option (A × U) := none
  sNetOut : Option (A × U) := none
  sBore : Option (A × B) := none
  sFluid : Option (A × V) := none
  sHeat : Option (A × U) := none
  mixS : Option (A × W) := none

/-- `_check_coefficients` (l. 1205-1224) and `_get_stored_coefficients` (l. 1191-1194). -/
def lookup {X : Type*} (hit : A → A → Bool) (s : Option (A × X)) (a : A) : Option X :=
  match s with
  | some (k, v) => if hit k a then some v else none
  | none => none

/-- `coefficients_inlet_temperature` (l. 613-649). -/
def callInlet (M : Machine A F V B U W) (a : A) (s : St A F V B U W) : V × St A F V B U W :=
  match lookup M.hit s.sInlet a with
  | some v => (v, s)
  | none => (M.inlet (M.fmt a), { s with f := some (M.fmt a), sInlet := some (a, M.inlet (M.fmt a)) })

/-- `coefficients_outlet_temperature` (l. 693-729). -/
def callOutlet (M : Machine A F V B U W) (a : A) (s : St A F V B U W) : V × St A F V B U W :=
  match lookup M.hit s.sOutlet a with
  | some v => (v, s)
  | none => (M.outlet (M.fmt a), { s with f := some (M.fmt a), sOutlet := some (a, M.outlet (M.fmt a)) })

/-- `coefficients_borehole_heat_extraction_rate` (l. 904-939): formats the inputs, then calls the inlet
coefficients. -/
def callBore (M : Machine A F V B U W) (a : A) (s : St A F V B U W) : B × St A F V B U W :=
  match lookup M.hit s.sBore a with
  | some v => (v, s)
  | none =>
    let r := callInlet M a { s with f := some (M.fmt a) }
    (M.bore (M.fmt a) r.1, { r.2 with sBore := some (a, M.bore (M.fmt a) r.1) })

/-- `coefficients_fluid_heat_extraction_rate` (l. 983-1018). -/
def callFluid (M : Machine A F V B U W) (a : A) (s : St A F V B U W) : V × St A F V B U W :=
  match lookup M.hit s.sFluid a with
  | some v => (v, s)
  | none =>
    let r := callInlet M a { s with f := some (M.fmt a) }
    (M.fluid (M.fmt a) r.1, { r.2 with sFluid := some (a, M.fluid (M.fmt a) r.1) })

/-- `coefficients_network_heat_extraction_rate` (l. 1062-1084). -/
def callHeat (M : Machine A F V B U W) (a : A) (s : St A F V B U W) : U × St A F V B U W :=
  match lookup M.hit s.sHeat a with
  | some v => (v, s)
  | none =>
    let r := callFluid M a s
    (M.sum r.1, { r.2 with sHeat := some (a, M.sum r.1) })

/-- `coefficients_network_inlet_temperature` (l. 773-795). -/
def callNetIn (M : Machine A F V B U W) (a : A) (s : St A F V B U W) : U × St A F V B U W :=
  match lookup M.hit s.sNetIn a with
  | some v => (v, s)
  | none =>
    let r := callHeat M a s
    (M.inv r.1, { r.2 with sNetIn := some (a, M.inv r.1) })

/-- `_coefficients_mixing` (l. 1109-1114): new weights are computed from the formatted inputs currently
held by the object, whatever the argument.  (`none` for `f` cannot occur, see `CacheProps`.) -/
def callMix (M : Machine A F V B U W) (a : A) (s : St A F V B U W) : Option W × St A F V B U W :=
  match lookup M.near s.mixS a with
  | some w => (some w, s)
  | none =>
    match s.f with
    | some f => (some (M.mix f), { s with mixS := some (a, M.mix f) })
    | none => (none, s)

/-- `coefficients_network_outlet_temperature` (l. 839-860). -/
def callNetOut (M : Machine A F V B U W) (a : A) (s : St A F V B U W) : Option U × St A F V B U W :=
  match lookup M.hit s.sNetOut a with
  | some v => (some v, s)
  | none =>
    let r := callOutlet M a s
    let q := callMix M a r.2
    match q.1 with
    | some w => (some (M.comb w r.1), { q.2 with sNetOut := some (a, M.comb w r.1) })
    | none => (none, q.2)

/-- A call of one of the seven methods. -/
inductive Call (A : Type*)
  | inlet (a : A)
  | outlet (a : A)
  | netIn (a : A)
  | netOut (a : A)
  | bore (a : A)
  | fluid (a : A)
  | heat (a : A)

/-- Arguments of a call. -/
def Call.arg : Call A → A
  | .inlet a | .outlet a | .netIn a | .netOut a | .bore a | .fluid a | .heat a => a

/-- State after a call. -/
def step (M : Machine A F V B U W) (s : St A F V B U W) : Call A → St A F V B U W
  | .inlet a => (callInlet M a s).2
  | .outlet a => (callOutlet M a s).2
  | .netIn a => (callNetIn M a s).2
  | .netOut a => (callNetOut M a s).2
  | .bore a => (callBore M a s).2
  | .fluid a => (callFluid M a s).2
  | .heat a => (callHeat M a s).2

/-- State after a history of calls on a new object (`_initialize_stored_coefficients`, l. 1149-1159:
`nan` arguments never compare equal, so nothing is stored). -/
def run (M : Machine A F V B U W) (hist : List (Call A)) : St A F V B U W := hist.foldl (step M) {}

/-! ### The numeric instance -/

variable {n : ℕ} {ns : Fin n → ℕ}

/-- Arguments `m_flow_network`, `cp_f` (arrays; scalars are lists of one element). -/
abbrev NetArgs := List ℝ × List ℝ

/-- NumPy broadcasting of an array of one element. -/
def bcast (k : ℕ) (l : List ℝ) : List ℝ :=
  match l with
  | [a] => List.replicate k a
  | _ => l

/-- `m_flow_network * cp_f` for the `k` circuits. -/
def mcp (k : ℕ) (a : NetArgs) : List ℝ := List.zipWith (· * ·) (bcast k a.1) (bcast k a.2)

/-- `np.all(np.abs(x - y) < np.abs(y) * tol)` with `tol = 1e-6`. -/
def closeTo (x y : List ℝ) : Bool :=
  open Classical in (List.zipWith (fun u v => decide (|u - v| < |v| * (1 / 10 ^ 6))) x y).all id

/-- The machine of a network with topology `t` and borehole models `p`; results are `none` when the
linear solver raises. -/
def netMachine (t : Topology) (p : (i : Fin n) → Pipe (ns i)) :
    Machine NetArgs (Option Formatted) (Option (Coef (Fin n) ns)) (Option (Coef (SegIdx ns) ns))
      (Option (Coef Unit ns)) (ℕ → ℝ) where
  hit := fun k a => closeTo (mcp t.nInlets a) (mcp t.nInlets k)
  near := fun k a => closeTo (bcast t.nInlets a.1) (bcast t.nInlets k.1)
  fmt := fun a => (format t a.1 a.2).toOption
  inlet := fun f => f.bind fun f => netInlet t p f
  outlet := fun f => f.bind fun f => netOutlet t p f
  bore := fun f v => f.bind fun f => v.map (boreHeat t p f)
  fluid := fun f v => f.bind fun f => v.map (fluidHeat t p f)
  sum := fun v => v.map netHeat
  inv := fun u => u.bind netFromHeat
  mix := fun f => match f with
    | some f => mixing (flowOutlets t f) f.mIn
    | none => fun _ => 0
  comb := fun w v => v.map (netMixed w)

end Verif.Net
