import Mathlib.Algebra.Field.Defs

/-!
# Calls on a load aggregation object and the load history they describe

All three aggregation schemes of `/repo/pygfunction/load_aggregation.py` share the same
calls: `next_time_step(time)` and `set_current_load(q_b)` (the abstract interface, l. 8-43,
and the loop of `_base_solver`/examples that alternates the two).  The load history is the
list of loads per time step, latest time step first; it is the specification's view.
-/

namespace Verif.LoadAgg

/-- The calls a user can make on the object during a simulation. -/
inductive Op (K S : Type*) where
  /-- `next_time_step(time)` -/
  | next
  /-- `set_current_load(q_b)` -/
  | set (l : S → K)

variable {K : Type*} [Field K] {S : Type*}

/-- Effect of one call on the load history (latest step first): a new time step has
zero load until one is set; setting a load replaces the load of the current step. -/
def histStep (h : List (S → K)) : Op K S → List (S → K)
  | .next => (fun _ => 0) :: h
  | .set l => l :: h.tail

/-- Load history after a sequence of calls. -/
def hist (ops : List (Op K S)) : List (S → K) := ops.foldl histStep []

/-- A call sequence is proper if it starts with `next_time_step` (or is empty):
no load is set before the first time step. -/
def Proper : List (Op K S) → Prop
  | [] => True
  | .next :: _ => True
  | .set _ :: _ => False

end Verif.LoadAgg
