import Verif.LoadAgg.CJModel

/-!
# Specification vocabulary for the Claesson-Javed scheme

The specification only talks about the *load history*: the list of loads per time
step, latest time step first.
-/

namespace Verif.LoadAgg.CJ

variable {K : Type*} [Field K] {S : Type*}

/-- Cell contents together with the heat that has left the last cell: at each
`next_time_step` the load of the last cell moves out (it is no longer represented). -/
def outStep {n : ℕ} (w : Fin (n + 1) → K) (s : S) (p : Cells K S n × K) :
    Op K S → Cells K S n × K
  | .next => (step w p.1 .next, p.2 + p.1 s (Fin.last n))
  | .set l => (step w p.1 (.set l), p.2)

/-- Heat that has left the last cell for source `s` during the calls. -/
def outflow {n : ℕ} (w : Fin (n + 1) → K) (s : S) (ops : List (Op K S)) : K :=
  (ops.foldl (outStep w s) (initCells, 0)).2

end Verif.LoadAgg.CJ
