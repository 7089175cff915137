import Verif.LoadAgg.CJModel
import Verif.LoadAgg.MLAAModel
import Verif.LoadAgg.LiuModel

/-!
# Model of the load aggregation objects and the arrays that they share with the caller

Models `pygfunction/load_aggregation.py`: `initialize` (l. 96-105, 289-291, 541-543) and `get_thermal_response_factor_increment` (l. 136-140) with the other methods of the three schemes.
`ClaessonJaved.initialize` keeps the increments in a new array; `MLAA.initialize` and `Liu.initialize` keep the array of the caller (`reshape` of a contiguous array is a view of it).
No `initialize` touches the loads.  `get_thermal_response_factor_increment` returns a copy for one source (`flatten`) and the array of the object otherwise.

Simplifications: exact arithmetic.  Arrays are functions of their indices and their shapes are right (see `ShapeModel`).  A call that raises leaves the object as it was, but the time steps of
`MLAA` and `Liu` beyond the last one end the simulation (`none`, as in their models).
-/

namespace Verif.LoadAgg.Reuse

variable {K : Type*} [Field K] {S : Type*}

/-- An array of response factors. -/
abbrev Arr (K S : Type*) := S → S → ℕ → K

/-- Statements of the caller. -/
inductive Call (K S : Type*) where
  /-- The caller fills its array `r` with new values, in place. -/
  | write (r : ℕ) (a : Arr K S)
  /-- The caller fills the array returned by `get_thermal_response_factor_increment()` with new values, in place. -/
  | writeInc (a : Arr K S)
  /-- `initialize(r)` -/
  | init (r : ℕ)
  /-- `next_time_step(time)` -/
  | next
  /-- `set_current_load(q_b)` -/
  | set (l : S → K)

/-- A `ClaessonJaved` object and the arrays of the caller; `dg` is missing before `initialize`. -/
structure CJObj (K S : Type*) (n : ℕ) where
  heap : ℕ → Arr K S
  dg : Option (S → S → Fin (n + 1) → K)
  q : CJ.Cells K S n

variable {n : ℕ}

/-- One statement with a `ClaessonJaved` object (l. 96-105, 117, 136-140, 167). -/
def cjCall [Fintype S] (w : Fin (n + 1) → K) (o : CJObj K S n) : Call K S → CJObj K S n
  | .write r a => { o with heap := Function.update o.heap r a }
  | .writeInc a => { o with dg := if Fintype.card S = 1 then o.dg else o.dg.map fun _ i j k => a i j k }
  | .init r => { o with dg := some (CJ.increments fun i j k => o.heap r i j k) }
  | .next => { o with q := CJ.nextTimeStep w o.q }
  | .set l => { o with q := CJ.setCurrentLoad o.q l }

/-- `temporal_superposition()` of a `ClaessonJaved` object (l. 193). -/
def cjTemp [Fintype S] (o : CJObj K S n) : Option (S → K) := o.dg.map fun d => CJ.temporalSuperposition d o.q

/-- An `MLAA` or `Liu` object with the loads `σ`, and the arrays of the caller; `g` is the array that `initialize` was given. -/
structure RefObj (K S σ : Type*) where
  heap : ℕ → Arr K S
  g : Option ℕ
  loads : Option σ

/-- One statement with an `MLAA` or `Liu` object (l. 289-291, 541-543); they have no `get_thermal_response_factor_increment`. -/
def refCall {σ : Type*} (step : σ → Op K S → Option σ) (o : RefObj K S σ) : Call K S → RefObj K S σ
  | .write r a => { o with heap := Function.update o.heap r a }
  | .writeInc _ => o
  | .init r => { o with g := some r }
  | .next => { o with loads := o.loads.bind fun s => step s .next }
  | .set l => { o with loads := o.loads.bind fun s => step s (.set l) }

/-- `temporal_superposition()`: reads the array at the time of the call (l. 404-428, 650-672). -/
def refTemp {σ : Type*} (temp : Arr K S → σ → Option (S → K)) (o : RefObj K S σ) : Option (S → K) :=
  match o.g with
  | none => none
  | some r => o.loads.bind (temp (o.heap r))

end Verif.LoadAgg.Reuse
