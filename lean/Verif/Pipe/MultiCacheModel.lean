import Verif.Pipe.CacheModel
import Verif.Pipe.MultiModel

/-!
# Model of the caching of coefficients in `pipes.MultipleUTube` and `pipes.IndependentMultipleUTube`

Models the stateful part of the methods of `_BasePipe` (`pygfunction/pipes.py`) that these classes inherit: `coefficients_inlet_temperature` (l. 321-345), `coefficients_outlet_temperature`
(l. 380-436), `coefficients_temperature` (l. 480-529), `coefficients_borehole_heat_extraction_rate` (l. 565-598), `coefficients_fluid_heat_extraction_rate` (l. 636-667), the store
(l. 810-880), and when `_continuity_condition_head`, `_pipe_connectivity`, `_general_solution`, `_flow_direction` update the model variables (l. 1888-2135, 2332-2470).

First the machine with arbitrary computations, then its instance with the coefficients of `MultiModel`.  Simplifications: the attributes set by `_format_inputs` are read as products of flow rate and heat
capacity and as flow directions; flow rates and heat capacities have one value per circuit; an exception of `np.linalg.eig` or `np.linalg.inv` in `_update_model_variables` is not modelled
(`Verif.Pipe.Multi.eig_exists`); `segment_ratios` is `None` or an array.
-/

noncomputable section

namespace Verif.Pipe.MultiCache

/-- What the methods compute.  `A`: arguments; `F`: attributes of `_format_inputs`; `G`: segments; `R`: resistances; `MV`: model variables; `Hd`: coefficients at the head;
`O`, `T`, `B`, `Q`, `I`: coefficients of outlet temperature, temperatures, heat extraction rates of the segments and of the fluid, inlet temperature.  `none` is an exception. -/
structure Machine (A F G R MV Hd O T B Q I : Type) where
  hit : A → A → Bool
  fmt : A → F
  seg : A → G
  mvOf : R → F → MV
  headOf : F → Hd
  outOf : Hd → F → MV → G → Option O
  tempOf : Hd → F → MV → G → Option T
  boreOf : F → G → T → B
  fluidOf : F → O → Q
  invOf : Q → Option I

/-- State: resistances, attributes of the last `_format_inputs`, model variables, stored coefficients of the methods 1, 3, 4, 6 and 7, each with the arguments. -/
structure St (A F R MV Hd O B Q I : Type) where
  R : R
  f : Option F := none
  mv : Option (A × MV) := none
  s1 : Option (A × Hd) := none
  s3 : Option (A × I) := none
  s4 : Option (A × O) := none
  s6 : Option (A × B) := none
  s7 : Option (A × Q) := none

variable {A F G R MV Hd O T B Q I : Type} (M : Machine A F G R MV Hd O T B Q I)

/-- `_check_coefficients` and `_get_stored_coefficients` (l. 829-831, 859-880). -/
def lookup {X : Type} (s : Option (A × X)) (a : A) : Option X :=
  match s with
  | some (k, v) => if M.hit k a then some v else none
  | none => none

/-- `_check_model_variables` (l. 833-857). -/
def checkMv (a : A) (s : St A F R MV Hd O B Q I) : St A F R MV Hd O B Q I :=
  match lookup M s.mv a with
  | some _ => s
  | none => { s with f := some (M.fmt a), mv := some (a, M.mvOf s.R (M.fmt a)) }

/-- Attributes and model variables; `none` if they do not exist (`AttributeError`). -/
def attrs (s : St A F R MV Hd O B Q I) : Option (F × MV) := s.f.bind fun f => s.mv.map fun p => (f, p.2)

/-- Coefficients at the head (l. 388-402, 486-500). -/
def head (a : A) (s : St A F R MV Hd O B Q I) : Option Hd × St A F R MV Hd O B Q I :=
  match lookup M s.s1 a with
  | some h => (some h, s)
  | none =>
    let s' := checkMv M a s
    match s'.f with
    | some f => (some (M.headOf f), { s' with s1 := some (a, M.headOf f) })
    | none => (none, s')

/-- Coefficients at the head, then the general solution, the connections and the flow directions, each after `_check_model_variables`. -/
def parts (a : A) (s : St A F R MV Hd O B Q I) : Option (Hd × F × MV) × St A F R MV Hd O B Q I :=
  let r := head M a s
  let s' := checkMv M a r.2
  (r.1.bind fun h => (attrs s').map fun p => (h, p), s')

/-- `coefficients_outlet_temperature`. -/
def callOutlet (a : A) (s : St A F R MV Hd O B Q I) : Option O × St A F R MV Hd O B Q I :=
  match lookup M s.s4 a with
  | some v => (some v, s)
  | none =>
    let r := parts M a s
    match r.1.bind fun p => M.outOf p.1 p.2.1 p.2.2 (M.seg a) with
    | some o => (some o, { r.2 with s4 := some (a, o) })
    | none => (none, r.2)

/-- `coefficients_temperature`. -/
def callTemp (a : A) (s : St A F R MV Hd O B Q I) : Option T × St A F R MV Hd O B Q I :=
  let o := callOutlet M a s
  match o.1 with
  | none => (none, o.2)
  | some _ =>
    let r := parts M a o.2
    (r.1.bind fun p => M.tempOf p.1 p.2.1 p.2.2 (M.seg a), r.2)

/-- `coefficients_borehole_heat_extraction_rate`: `_m_flow_pipe` and `_cp_pipe` are read after `_format_inputs`, before the temperatures. -/
def callBore (a : A) (s : St A F R MV Hd O B Q I) : Option B × St A F R MV Hd O B Q I :=
  match lookup M s.s6 a with
  | some v => (some v, s)
  | none =>
    let r := callTemp M a { s with f := some (M.fmt a) }
    match r.1 with
    | some t => (some (M.boreOf (M.fmt a) (M.seg a) t), { r.2 with s6 := some (a, M.boreOf (M.fmt a) (M.seg a) t) })
    | none => (none, r.2)

/-- `coefficients_fluid_heat_extraction_rate`: `_m_flow_in` and `_cp_in` are read after the outlet coefficients. -/
def callFluid (a : A) (s : St A F R MV Hd O B Q I) : Option Q × St A F R MV Hd O B Q I :=
  match lookup M s.s7 a with
  | some v => (some v, s)
  | none =>
    let r := callOutlet M a { s with f := some (M.fmt a) }
    match r.1.bind fun o => r.2.f.map fun f => M.fluidOf f o with
    | some q => (some q, { r.2 with s7 := some (a, q) })
    | none => (none, r.2)

/-- `coefficients_inlet_temperature`. -/
def callInlet (a : A) (s : St A F R MV Hd O B Q I) : Option I × St A F R MV Hd O B Q I :=
  match lookup M s.s3 a with
  | some v => (some v, s)
  | none =>
    let r := callFluid M a s
    match r.1.bind M.invOf with
    | some v => (some v, { r.2 with s3 := some (a, v) })
    | none => (none, r.2)

/-- Public methods. -/
inductive Call (A R : Type)
  | inlet (a : A)
  | outlet (a : A)
  | temp (a : A)
  | bore (a : A)
  | fluid (a : A)
  /-- `update_thermal_resistances` (l. 1865-1886, 2309-2330). -/
  | update (r : R)

/-- State after a call. -/
def step (s : St A F R MV Hd O B Q I) : Call A R → St A F R MV Hd O B Q I
  | .inlet a => (callInlet M a s).2
  | .outlet a => (callOutlet M a s).2
  | .temp a => (callTemp M a s).2
  | .bore a => (callBore M a s).2
  | .fluid a => (callFluid M a s).2
  | .update r => { R := r, f := s.f }

/-- A new object after a history of calls. -/
def run (r : R) (hist : List (Call A R)) : St A F R MV Hd O B Q I := hist.foldl (step M) { R := r }

/-! ### Several U-tubes -/

/-- Arguments `m_flow_borehole`, `cp_f`, `nSegments`, `segment_ratios`. -/
structure Args (ni : ℕ) where
  m : Fin ni → ℝ
  cp : Fin ni → ℝ
  n : ℕ
  ratios : Option (List ℝ)

open Matrix Multi

/-- The comparisons of `_check_model_variables` and `_check_coefficients`; `k` is stored. -/
def hitArgs {ni : ℕ} (k a : Args ni) : Bool :=
  (List.ofFn fun i => Cache.near (a.m i * a.cp i) (k.m i * k.cp i)).all id && a.n == k.n && Cache.ratiosNear k.ratios a.ratios

/-- Coefficients with `k` columns for the wall temperatures. -/
abbrev Coef (ι : Type) (ni : ℕ) := Σ k : ℕ, Matrix ι (Fin ni) ℝ × Matrix ι (Fin k) ℝ

variable {n ni : ℕ}

/-- Head coefficients, attributes, model variables and segments as a borehole of `MultiModel`. -/
def boreOf (edges : ℕ → Option (List ℝ) → ℕ → ℝ) (H : ℝ) (h : Matrix (Fin n) (Fin ni) ℝ × Matrix (Fin n) (Fin n) ℝ) (f : Conn n ni ni) (p : Matrix (P n) (P n) ℝ × Eig n)
    (g : ℕ × Option (List ℝ)) : Bore n ni ni g.1 where
  conn := { f with cin := h.1, cfu := h.2 }
  f0 := genF0 p.2
  fb := fun z i u => genB p.1 p.2 (edges g.1 g.2) z i u
  H := H

/-- The computations of `MultipleUTube` and `IndependentMultipleUTube`: `fmt` formats the flow rates and heat capacities, `eig` is the decomposition of a matrix, `edges` the
edges of the segments, `H` the length. -/
def tubes (fmt : (Fin ni → ℝ) → (Fin ni → ℝ) → Conn n ni ni) (eig : Matrix (P n) (P n) ℝ → Eig n) (edges : ℕ → Option (List ℝ) → ℕ → ℝ) (H : ℝ) :
    Machine (Args ni) (Conn n ni ni) (ℕ × Option (List ℝ)) (Matrix (P n) (P n) ℝ) (Matrix (P n) (P n) ℝ × Eig n) (Matrix (Fin n) (Fin ni) ℝ × Matrix (Fin n) (Fin n) ℝ)
      (Coef (Fin ni) ni) (Σ k : ℕ, ℝ → Option (Matrix (P n) (Fin ni) ℝ × Matrix (P n) (Fin k) ℝ)) (Σ k : ℕ, Fin k → Option ((Fin ni → ℝ) × (Fin k → ℝ))) (Coef (Fin ni) ni) (Coef (Fin ni) ni) where
  hit := hitArgs
  fmt := fun a => fmt a.m a.cp
  seg := fun a => (a.n, a.ratios)
  mvOf := fun Rd f => (odeA Rd f.mcp, eig (odeA Rd f.mcp))
  headOf := fun f => (f.cin, f.cfu)
  outOf := fun h f p g => (boreOf edges H h f p g).outletCoef.map (⟨g.1, ·⟩)
  tempOf := fun h f p g => (boreOf edges H h f p g).upSolve.map fun _ => ⟨g.1, (boreOf edges H h f p g).tempCoef⟩
  boreOf := fun f g t => ⟨t.1, fun v => (t.2 (edges g.1 g.2 (v + 1))).bind fun c1 => (t.2 (edges g.1 g.2 v)).map fun c0 => (f.mcp ᵥ* (c1.1 - c0.1), f.mcp ᵥ* (c1.2 - c0.2))⟩
  fluidOf := fun f o => ⟨o.1, -diagonal f.mcpIn + diagonal f.mcpIn * o.2.1, diagonal f.mcpIn * o.2.2⟩
  invOf := fun q => open Classical in if IsUnit q.2.1.det then some ⟨q.1, q.2.1⁻¹, -(q.2.1⁻¹ * q.2.2)⟩ else none

/-- `MultipleUTube`. -/
def multipleTubes (c : Config) (reversible : Bool) (eig : Matrix (P n) (P n) ℝ → Eig n) (edges : ℕ → Option (List ℝ) → ℕ → ℝ) (H : ℝ) :=
  tubes (fun (m cp : Fin 1 → ℝ) => multiple c n reversible (m 0) (cp 0)) eig edges H

/-- `IndependentMultipleUTube`. -/
def independentTubes (reversible : Bool) (eig : Matrix (P n) (P n) ℝ → Eig n) (edges : ℕ → Option (List ℝ) → ℕ → ℝ) (H : ℝ) :=
  tubes (fun (m cp : Fin n → ℝ) => independent n reversible m cp) eig edges H

end Verif.Pipe.MultiCache
