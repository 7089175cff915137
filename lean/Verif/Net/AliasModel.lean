import Verif.Net.CacheModel
import Verif.Net.InputModel

/-!
# Model of a network whose arguments are objects of the caller

`networks.Network` stores in `_set_stored_coefficients` (l. 1182-1190 of `pygfunction/networks.py`) the product `m_flow_network*cp_f`, which is a new array, but the objects `nSegments`
and `segment_ratios` themselves; `_coefficients_mixing` (l. 1109-1114) stores the object `m_flow_network`; `_format_inputs` (l. 1230-1237) keeps the array `m_flow_network` itself if it has
one value per circuit.  `_check_coefficients` (l. 1205-1224) and `_check_mixing_coefficients` (l. 1196-1203) read the stored objects at the time of the comparison.

The methods are those of `CacheModel`, with numbers of segments and ratios.  Simplifications: as there, calls that raise leave the object as it is; what the methods compute from
formatted inputs is arbitrary (`Comp`); the arrays in a list of ratios are part of the list.
-/

noncomputable section

namespace Verif.Net.Alias

/-- Objects of the caller: arrays, lists of numbers of segments, lists of arrays of ratios. -/
structure Heap where
  arr : ℕ → List ℝ
  segs : ℕ → List ℕ
  rats : ℕ → List (List ℝ)

/-- `m_flow_network`, `cp_f`: a number, or an array. -/
inductive Flow
  | num (x : ℝ)
  | ref (r : ℕ)

/-- `nSegments`: a number, or a list. -/
inductive Seg
  | num (n : ℕ)
  | ref (r : ℕ)

/-- `segment_ratios`: `None`, an array, or a list of arrays. -/
inductive Rat
  | none
  | array (r : ℕ)
  | list (r : ℕ)

/-- Arguments of a method. -/
structure Args where
  m : Flow
  cp : Flow
  n : Seg
  q : Rat

/-- Content of the arguments. -/
inductive SegVal
  | num (n : ℕ)
  | list (l : List ℕ)
  deriving DecidableEq

inductive RatVal
  | none
  | array (l : List ℝ)
  | list (l : List (List ℝ))

structure Val where
  m : List ℝ
  cp : List ℝ
  n : SegVal
  q : RatVal

def Flow.val (h : Heap) : Flow → List ℝ
  | .num x => [x]
  | .ref r => h.arr r

def Seg.val (h : Heap) : Seg → SegVal
  | .num n => .num n
  | .ref r => .list (h.segs r)

def Rat.val (h : Heap) : Rat → RatVal
  | .none => .none
  | .array r => .array (h.arr r)
  | .list r => .list (h.rats r)

def Args.val (h : Heap) (a : Args) : Val := ⟨a.m.val h, a.cp.val h, a.n.val h, a.q.val h⟩

/-- `np.atleast_1d(nSegments)` (l. 1277). -/
def SegVal.toList : SegVal → List ℕ
  | .num n => [n]
  | .list l => l

def RatVal.toArg : RatVal → RatioArg
  | .none => .none
  | .array r => .array r
  | .list l => .list (l.map some)

/-- `_format_inputs` (l. 1225-1296); `none` is an exception. -/
def Val.format (t : Topology) (v : Val) : Option Inputs := (formatInputs t v.m v.cp v.n.toList v.q.toArg).toOption

/-- `check_ratios` (l. 1210-1217).  A list with more entries than the stored one raises `IndexError`; here it is another list. -/
def ratiosNear (stored arg : RatVal) : Bool :=
  match stored, arg with
  | .none, .none => true
  | .list s, .list a => decide (a.length ≤ s.length) && (List.zipWith (fun x y => x.length == y.length && closeTo x y) a s).all id
  | _, _ => false

/-- What the methods compute from formatted inputs. -/
structure Comp (V B U : Type) where
  inlet : Inputs → Option V
  outlet : Inputs → Option V
  bore : Inputs → V → B
  fluid : Inputs → V → V
  sum : V → U
  inv : U → Option U
  comb : (ℕ → ℝ) → V → U

variable {V B U : Type}

/-- The machine for arguments by value; with each argument comes the product of flow rate and heat capacity at the time of the call. -/
def valueMachine (t : Topology) (C : Comp V B U) : Machine (Val × List ℝ) (Option Inputs) (Option V) (Option B) (Option U) (ℕ → ℝ) where
  hit := fun k a => closeTo a.2 k.2 && decide (a.1.n = k.1.n) && ratiosNear k.1.q a.1.q
  near := fun k a => closeTo (bcast t.nInlets a.1.m) (bcast t.nInlets k.1.m)
  fmt := fun a => a.1.format t
  inlet := fun f => f.bind C.inlet
  outlet := fun f => f.bind C.outlet
  bore := fun f v => f.bind fun f => v.map (C.bore f)
  fluid := fun f v => f.bind fun f => v.map (C.fluid f)
  sum := fun v => v.map C.sum
  inv := fun u => u.bind C.inv
  mix := fun f => match f with
    | some f => mixing (flowOutlets t f.flow) f.flow.mIn
    | none => fun _ => 0
  comb := fun w v => v.map (C.comb w)

/-- An argument as it is now: its content and the product `m_flow_network*cp_f` (with the shape of the circuits) that was computed when it was passed. -/
def seen (h : Heap) (a : Args × List ℝ) : Val × List ℝ := (a.1.val h, a.2)

/-- The formatted inputs as they are now: the flow rates are the array of the caller unless a number was split between the circuits (l. 1230-1237). -/
def live (h : Heap) (f : Option Inputs × Args) : Option Inputs :=
  match f.2.m.val h with
  | [_] => f.1
  | l => f.1.map fun i => { i with flow := { i.flow with mIn := l } }

/-- The machine of a network object at a time when the objects of the caller are `h`: stored arguments are references. -/
def aliasMachine (t : Topology) (C : Comp V B U) (h : Heap) :
    Machine (Args × List ℝ) (Option Inputs × Args) (Option V) (Option B) (Option U) (ℕ → ℝ) where
  hit := fun k a => (valueMachine t C).hit (seen h k) (seen h a)
  near := fun k a => (valueMachine t C).near (seen h k) (seen h a)
  fmt := fun a => ((a.1.val h).format t, a.1)
  inlet := fun f => (valueMachine t C).inlet (live h f)
  outlet := fun f => (valueMachine t C).outlet (live h f)
  bore := fun f => (valueMachine t C).bore (live h f)
  fluid := fun f => (valueMachine t C).fluid (live h f)
  sum := (valueMachine t C).sum
  inv := (valueMachine t C).inv
  mix := fun f => (valueMachine t C).mix (live h f)
  comb := (valueMachine t C).comb

/-- State of the network object. -/
abbrev Obj (V B U : Type) := St (Args × List ℝ) (Option Inputs × Args) (Option V) (Option B) (Option U) (ℕ → ℝ)

/-- The argument of a call made now. -/
def pass (t : Topology) (h : Heap) (a : Args) : Args × List ℝ := (a, mcp t.nInlets ((a.val h).m, (a.val h).cp))

/-- A call with other arguments. -/
def mapCall {A A' : Type} (g : A → A') : Call A → Call A'
  | .inlet a => .inlet (g a)
  | .outlet a => .outlet (g a)
  | .netIn a => .netIn (g a)
  | .netOut a => .netOut (g a)
  | .bore a => .bore (g a)
  | .fluid a => .fluid (g a)
  | .heat a => .heat (g a)

/-- What a program does: calls of the methods, and assignments in place. -/
inductive Op
  | call (c : Call Args)
  | setArr (r : ℕ) (l : List ℝ)
  | setSegs (r : ℕ) (l : List ℕ)
  | setRats (r : ℕ) (l : List (List ℝ))

/-- The objects of the caller after an operation. -/
def Heap.after (h : Heap) : Op → Heap
  | .call _ => h
  | .setArr r l => { h with arr := Function.update h.arr r l }
  | .setSegs r l => { h with segs := Function.update h.segs r l }
  | .setRats r l => { h with rats := Function.update h.rats r l }

/-- One operation. -/
def exec (t : Topology) (C : Comp V B U) (s : Heap × Obj V B U) (o : Op) : Heap × Obj V B U :=
  match o with
  | .call c => (s.1, step (aliasMachine t C s.1) s.2 (mapCall (pass t s.1) c))
  | o => (s.1.after o, s.2)

/-- A program on a new object. -/
def prog (t : Topology) (C : Comp V B U) (h : Heap) (ops : List Op) : Heap × Obj V B U := ops.foldl (exec t C) (h, {})

end Verif.Net.Alias
