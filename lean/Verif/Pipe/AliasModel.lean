import Verif.Pipe.MultiCacheModel

/-!
# Model of a pipe whose arguments are objects of the caller

`_set_stored_coefficients` (l. 822-827 of `pygfunction/pipes.py`) and `_check_model_variables` (l. 833-857) keep the product `m_flow_borehole*cp_f`, which is a new array, and the object
`segment_ratios` itself; `_check_coefficients` (l. 859-880) and `_check_model_variables` read it at the time of the comparison.  `_format_inputs` (l. 2177-2220, 2472-2501) keeps arrays
of flow rates and heat capacities of the caller in `_m_flow_in` and `_cp_in`; these are read only in `coefficients_fluid_heat_extraction_rate`, after `_format_inputs` of the same call,
so the attributes are values here.

Ratios are `None`, an array or a list.  Lists are accepted by `_segment_edges` and never found in the store (l. 840, 870), so a stored list is kept as its content.
-/

noncomputable section

namespace Verif.Pipe.Alias

open MultiCache

/-- Arrays of the caller: flow rates and heat capacities; ratios of segments (arrays or lists). -/
structure Heap where
  flow : ℕ → ℕ → ℝ
  rat : ℕ → List ℝ

/-- `m_flow_borehole`, `cp_f`: numbers, or an array. -/
inductive Flow (ni : ℕ)
  | num (x : Fin ni → ℝ)
  | ref (r : ℕ)

/-- `segment_ratios`: `None`, an array, or a list. -/
inductive Rat
  | none
  | array (r : ℕ)
  | list (r : ℕ)

/-- Arguments of a method. -/
structure Args (ni : ℕ) where
  m : Flow ni
  cp : Flow ni
  n : ℕ
  q : Rat

def Flow.val {ni : ℕ} (h : Heap) : Flow ni → Fin ni → ℝ
  | .num x => x
  | .ref r => fun i => h.flow r i

def Rat.val (h : Heap) : Rat → Option (List ℝ)
  | .none => Option.none
  | .array r => some (h.rat r)
  | .list r => some (h.rat r)

/-- Content of the arguments. -/
def Args.val {ni : ℕ} (h : Heap) (a : Args ni) : MultiCache.Args ni := ⟨a.m.val h, a.cp.val h, a.n, a.q.val h⟩

/-- Ratios as the pipe keeps them. -/
inductive Kept
  | none
  | array (r : ℕ)
  | list (l : List ℝ)

/-- Arguments as the pipe keeps them. -/
structure Key (ni : ℕ) where
  m : Fin ni → ℝ
  cp : Fin ni → ℝ
  n : ℕ
  q : Kept

def Rat.keep (h : Heap) : Rat → Kept
  | .none => .none
  | .array r => .array r
  | .list r => .list (h.rat r)

/-- The arguments passed to a method. -/
def pass {ni : ℕ} (h : Heap) (a : Args ni) : Key ni := ⟨a.m.val h, a.cp.val h, a.n, a.q.keep h⟩

def Kept.val (h : Heap) : Kept → Option (List ℝ)
  | .none => Option.none
  | .array r => some (h.rat r)
  | .list l => some l

/-- Content of kept arguments, at the time of the comparison. -/
def Key.val {ni : ℕ} (h : Heap) (k : Key ni) : MultiCache.Args ni := ⟨k.m, k.cp, k.n, k.q.val h⟩

/-- `None` with `None`, or `isinstance(..., np.ndarray)` on both sides (l. 838-844, 868-874). -/
def Kept.comparable : Kept → Kept → Bool
  | .none, .none => true
  | .array _, .array _ => true
  | _, _ => false

variable {ni : ℕ} {F G R MV Hd O T B Q I : Type} (M : Machine (MultiCache.Args ni) F G R MV Hd O T B Q I)

/-- A pipe (with computations `M` from values) while the objects of the caller are `h`. -/
def objects (h : Heap) : Machine (Key ni) F G R MV Hd O T B Q I where
  hit := fun k a => k.q.comparable a.q && M.hit (k.val h) (a.val h)
  fmt := fun a => M.fmt (a.val h)
  seg := fun a => M.seg (a.val h)
  mvOf := M.mvOf
  headOf := M.headOf
  outOf := M.outOf
  tempOf := M.tempOf
  boreOf := M.boreOf
  fluidOf := M.fluidOf
  invOf := M.invOf

/-- A method called with objects of the caller. -/
def passCall (h : Heap) : Call (Args ni) R → Call (Key ni) R
  | .inlet a => .inlet (pass h a)
  | .outlet a => .outlet (pass h a)
  | .temp a => .temp (pass h a)
  | .bore a => .bore (pass h a)
  | .fluid a => .fluid (pass h a)
  | .update r => .update r

/-- Statements of a program: a call, or an assignment in place (`m_flow[:] = x`, `ratios[:] = l`). -/
inductive Op (ni : ℕ) (R : Type)
  | call (c : Call (Args ni) R)
  | setFlow (r : ℕ) (x : ℕ → ℝ)
  | setRat (r : ℕ) (l : List ℝ)

def Heap.setFlow (h : Heap) (r : ℕ) (x : ℕ → ℝ) : Heap := { h with flow := Function.update h.flow r x }

def Heap.setRat (h : Heap) (r : ℕ) (l : List ℝ) : Heap := { h with rat := Function.update h.rat r l }

/-- One statement. -/
def exec (σ : Heap × St (Key ni) F R MV Hd O B Q I) : Op ni R → Heap × St (Key ni) F R MV Hd O B Q I
  | .call c => (σ.1, step (objects M σ.1) σ.2 (passCall σ.1 c))
  | .setFlow r x => (σ.1.setFlow r x, σ.2)
  | .setRat r l => (σ.1.setRat r l, σ.2)

/-- A program that starts with a new pipe. -/
def prog (h : Heap) (r : R) (p : List (Op ni R)) : Heap × St (Key ni) F R MV Hd O B Q I := p.foldl (exec M) (h, { R := r })

/-! ### `SingleUTube` and `Coaxial` -/

/-- Kept ratios after the array of ratios got the content `l`. -/
def rebind {X : Type*} (l : List ℝ) (s : Option (Cache.Args × X)) : Option (Cache.Args × X) := s.map fun p => ({ p.1 with ratios := p.1.ratios.map fun _ => l }, p.2)

/-- A pipe of `CacheModel` in a program with one array of ratios: all ratios that the pipe keeps are this array, so `ratios[:] = l` changes them all.  Simplification: one array. -/
def assign (l : List ℝ) (s : Cache.St) : Cache.St :=
  { s with mv := rebind l s.mv, s3 := rebind l s.s3, s4 := rebind l s.s4, s6 := rebind l s.s6, s7 := rebind l s.s7 }

end Verif.Pipe.Alias
