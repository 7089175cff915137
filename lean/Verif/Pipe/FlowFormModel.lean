import Verif.Tac
import Mathlib.Data.Real.Basic

/-!
# Model of the forms of the flow rate given to a pipe

Models in `pygfunction/pipes.py`: `_BasePipe._check_model_variables`, `_check_coefficients` and `_initialize_stored_coefficients` (l. 810-880), `SingleUTube._format_inputs` (l. 1608-1656),
`MultipleUTube._format_inputs` (l. 2177-2220), `IndependentMultipleUTube._format_inputs` and `_flow_direction` (l. 2332-2382, 2472-2501), as they are used by `coefficients_outlet_temperature`
(l. 347-436, 1094-1167), for one number of segments and `segment_ratios=None`.

The flow rate is a number or an array.  Simplifications: the heat capacity is a positive number, so that the product of flow rate and heat capacity has the form and the signs of the flow rate, and
the argument below is this product; the coefficients are any function of the products at the inlets and of the directions of flow (`C62`, `C61` give them); the coefficients at the head of the borehole
only depend on the directions and are not stored separately; empty arrays are not modelled for the classes with one inlet (their truth value depends on the version of numpy).  The rules of
broadcasting and the exceptions of numpy are written from general knowledge.
-/

noncomputable section

namespace Verif.Pipe.FlowForm

/-- `m_flow_borehole`: a number or an array. -/
inductive Flow
  | num (x : ℝ)
  | arr (l : List ℝ)

/-- `SingleUTube`, `Coaxial` and `MultipleUTube` have one inlet (`common`), `IndependentMultipleUTube` has one for each U-tube. -/
inductive Kind
  | common
  | independent (n : ℕ)

/-- `nInlets`. -/
def Kind.inlets : Kind → ℕ
  | .common => 1
  | .independent n => n

inductive Err
  /-- Arrays of different shapes, or the truth value of an array. -/
  | value
  /-- 'Incorrect length of mass flow vector.' -/
  | length
  /-- A truth value is not iterable. -/
  | type
deriving DecidableEq

/-- `_is_reversed`: a truth value or an array of them. -/
inductive Rev
  | one (b : Bool)
  | many (l : List Bool)

/-- `x < 0. and self.reversible_flow`. -/
def back (reversible : Bool) (x : ℝ) : Bool := open Classical in decide (x < 0) && reversible

/-- What `_format_inputs` assigns: capacity flow rates of the inlets and `_is_reversed`. -/
structure Fmt where
  vals : List ℝ
  rev : Rev

/-- `_format_inputs` of the classes with one inlet: `m_flow_borehole < 0. and ...` raises for two or more values. -/
def formatCommon (reversible : Bool) : Flow → Except Err Fmt
  | .num x => .ok ⟨[x], .one (back reversible x)⟩
  | .arr [x] => .ok ⟨[x], .one (back reversible x)⟩
  | .arr _ => .error .value

/-- `IndependentMultipleUTube._format_inputs`: `np.logical_and(m_flow_borehole < 0., ...)` has the form of the argument. -/
def formatIndependent (reversible : Bool) (n : ℕ) : Flow → Except Err Fmt
  | .num x => if n = 1 then .ok ⟨[x], .one (back reversible x)⟩ else .error .length
  | .arr l => if l.length = n then .ok ⟨l, .many (l.map (back reversible))⟩ else .error .length

def format (k : Kind) (reversible : Bool) (a : Flow) : Except Err Fmt :=
  match k with
  | .common => formatCommon reversible a
  | .independent n => formatIndependent reversible n a

/-- `_flow_direction`: `if self._is_reversed` or `enumerate(self._is_reversed)`. -/
def directions : Kind → Rev → Except Err (List Bool)
  | .common, .one b => .ok [b]
  | .common, .many _ => .error .value
  | .independent _, .one _ => .error .type
  | .independent _, .many l => .ok l

/-- `m_flow_borehole*cp_f - stored_m_flow_cp`: pairs of values after broadcasting. -/
def pairs : Flow → Flow → Except Err (List (ℝ × ℝ))
  | .num x, .num y => .ok [(x, y)]
  | .num x, .arr l => .ok (l.map fun y => (x, y))
  | .arr l, .num y => .ok (l.map fun x => (x, y))
  | .arr l, .arr l' =>
    if l.length = l'.length then .ok (l.zip l')
    else match l, l' with
      | [x], l' => .ok (l'.map fun y => (x, y))
      | l, [y] => .ok (l.map fun x => (x, y))
      | _, _ => .error .value

/-- `np.abs(x - y) < np.abs(y)*tol`. -/
def near (p : ℝ × ℝ) : Bool := open Classical in decide (|p.1 - p.2| < |p.2| * (1 / 10 ^ 6))

/-- `np.all(np.abs(m_flow_borehole*cp_f - stored_m_flow_cp) < np.abs(stored_m_flow_cp)*tol)`. -/
def close (a s : Flow) : Except Err Bool := (pairs a s).map fun l => l.all near

/-- The same with the array of `nInlets` times `np.nan` of a new pipe. -/
def closeNew (k : Kind) : Flow → Except Err Bool
  | .num _ => .ok false
  | .arr l => if l.length = k.inlets ∨ l.length = 1 ∨ k.inlets = 1 then .ok false else .error .value

/-- Model variables and coefficients of the outlet temperature, each with the flow rate they are stored for. -/
structure St (X : Type) where
  mv : Option (Flow × Fmt) := none
  out : Option (Flow × X) := none

variable {X : Type} (F : List ℝ → List Bool → X) (k : Kind) (reversible : Bool)

/-- Stored coefficients (l. 859-880): in a new pipe the number of segments is `np.nan` and the flow rates are not compared. -/
def lookup (a : Flow) (s : St X) : Except Err (Option X) :=
  match s.out with
  | none => .ok none
  | some (b, v) => (close a b).map fun h : Bool => if h then some v else none

/-- `_check_model_variables` (l. 833-857): in a new pipe the flow rates are compared before the number of segments. -/
def checkMv (a : Flow) (s : St X) : Except Err (Fmt × St X) :=
  let hit := match s.mv with
    | none => (closeNew k a).map fun _ => none
    | some (b, f) => (close a b).map fun h : Bool => if h then some f else none
  match hit with
  | .error e => .error e
  | .ok (some f) => .ok (f, s)
  | .ok none =>
    match format k reversible a with
    | .error e => .error e
    | .ok f => .ok (f, { s with mv := some (a, f) })

/-- `coefficients_outlet_temperature`: result and state after the call. -/
def outlet (a : Flow) (s : St X) : Except Err X × St X :=
  match lookup a s with
  | .error e => (.error e, s)
  | .ok (some v) => (.ok v, s)
  | .ok none =>
    match checkMv k reversible a s with
    | .error e => (.error e, s)
    | .ok (f, s') =>
      match directions k f.rev with
      | .error e => (.error e, s')
      | .ok d => (.ok (F f.vals d), { s' with out := some (a, F f.vals d) })

/-- Calls one after the other, exceptions being caught by the caller. -/
def run (as : List Flow) (s : St X) : St X := as.foldl (fun s a => (outlet F k reversible a s).2) s

end Verif.Pipe.FlowForm
