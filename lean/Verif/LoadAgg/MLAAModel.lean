import Verif.LoadAgg.Ops
import Verif.Tac

/-!
# Model of `load_aggregation.MLAA`

Source: `/repo/pygfunction/load_aggregation.py`, class `MLAA` (l. 229-470).

Simplifications: floats are elements of a field `K`; an array over time is a function on
`ℕ` (positions beyond the allocated length are never read by the code; a write
beyond the allocated length is the error value `none`).  `temporal_superposition`
before the first `next_time_step` (which reads negative indices in Python) is `none`:
that call is not modelled.  `set_current_load` before the first `next_time_step` writes
at index `-1` in Python, i.e. at the last position, and is modelled as such.
-/

namespace Verif.LoadAgg.MLAA

open Finset

variable {K : Type*} [Field K] {S : Type*}

/-- Constructor arguments kept by the object: number of time steps `Nt` (l. 452) and block
sizes `N0..N3` (l. 459-462). -/
structure Params where
  Nt : ℕ
  N0 : ℕ
  N1 : ℕ
  N2 : ℕ
  N3 : ℕ

/-- Object state (l. 453-458, 464-470). -/
structure State (K S : Type*) where
  nt : ℕ
  n0 : ℕ
  n1 : ℕ
  n2 : ℕ
  n3 : ℕ
  n4 : ℕ
  qb : ℕ → S → K
  Q0 : ℕ → S → K
  Q1 : S → K
  Q2 : S → K
  Q3 : S → K
  Q4 : S → K

/-- `_build_cells` (l. 453-470). -/
def init : State K S :=
  { nt := 0, n0 := 0, n1 := 0, n2 := 0, n3 := 0, n4 := 0
    qb := fun _ _ => 0, Q0 := fun _ _ => 0
    Q1 := fun _ => 0, Q2 := fun _ => 0, Q3 := fun _ => 0, Q4 := fun _ => 0 }

/-- `np.mean(q[:, start:stop], axis=1)`. -/
def windowMean (q : ℕ → S → K) (start stop : ℕ) : S → K :=
  fun s => (∑ i ∈ Ico start stop, q i s) / ((stop - start : ℕ) : K)

/-- `next_time_step` (l. 303-355).  Fails when the allocated number of time steps is
exceeded (l. 313: shape mismatch in the assignment to `Q0`; when `n0 = 2` numpy broadcasts the one
column that is left, and the failure comes with the next `set_current_load`, l. 382, instead). -/
def nextTimeStep (P : Params) (σ : State K S) : Option (State K S) :=
  let nt := σ.nt + 1
  if P.Nt < nt then none
  else
    -- l. 308-311
    let n0 := if nt < P.N0 then nt else P.N0
    -- l. 313: Q0[:, -n0:] = q_b[:, nt-n0:nt]
    let Q0 := fun p => if P.N0 - n0 ≤ p ∧ p < P.N0 then σ.qb (nt - n0 + (p - (P.N0 - n0)))
      else σ.Q0 p
    -- l. 317-324
    let n1 := if P.N0 + P.N1 ≤ nt then P.N1 else 0
    let Q1 := if P.N0 + P.N1 ≤ nt then
      windowMean σ.qb (nt - (n0 + n1)) (nt - n0) else σ.Q1
    -- l. 328-335
    let n2 := if P.N0 + P.N1 + P.N2 ≤ nt then P.N2 else 0
    let Q2 := if P.N0 + P.N1 + P.N2 ≤ nt then
      windowMean σ.qb (nt - (n0 + n1 + n2)) (nt - (n0 + n1)) else σ.Q2
    -- l. 339-346
    let n3 := if P.N0 + P.N1 + P.N2 + P.N3 ≤ nt then P.N3 else 0
    let Q3 := if P.N0 + P.N1 + P.N2 + P.N3 ≤ nt then
      windowMean σ.qb (nt - (n0 + n1 + n2 + n3)) (nt - (n0 + n1 + n2)) else σ.Q3
    -- l. 350-355
    let n4 := nt - (n0 + n1 + n2 + n3)
    let Q4 := if 0 < n4 then windowMean σ.qb 0 n4 else σ.Q4
    some { nt := nt, n0 := n0, n1 := n1, n2 := n2, n3 := n3, n4 := n4
           qb := σ.qb, Q0 := Q0, Q1 := Q1, Q2 := Q2, Q3 := Q3, Q4 := Q4 }

/-- `set_current_load` (l. 382-383). -/
def setCurrentLoad (P : Params) (σ : State K S) (l : S → K) : State K S :=
  { σ with
    qb := Function.update σ.qb (if σ.nt = 0 then P.Nt - 1 else σ.nt - 1) l
    Q0 := Function.update σ.Q0 (P.N0 - 1) l }

/-- `temporal_superposition` (l. 404-428), after at least one time step.  `G i j k` is
`g_d[i, j, k]`; `Q0[:, -k]` is position `N0 - k`. -/
def temporalSuperposition [Fintype S] (P : Params) (G : S → S → ℕ → K) (σ : State K S) :
    Option (S → K) :=
  if σ.n0 = 0 then none
  else some fun i =>
    ∑ t ∈ range (σ.n0 - 1), ∑ j, G i j t * (σ.Q0 (P.N0 - (t + 1)) j - σ.Q0 (P.N0 - (t + 2)) j)
    + ∑ j, G i j (σ.n0 - 1) * (σ.Q0 (P.N0 - σ.n0) j - σ.Q1 j)
    + ∑ j, G i j (σ.n0 + σ.n1 - 1) * (σ.Q1 j - σ.Q2 j)
    + ∑ j, G i j (σ.n0 + σ.n1 + σ.n2 - 1) * (σ.Q2 j - σ.Q3 j)
    + ∑ j, G i j (σ.n0 + σ.n1 + σ.n2 + σ.n3 - 1) * (σ.Q3 j - σ.Q4 j)
    + ∑ j, G i j (σ.n0 + σ.n1 + σ.n2 + σ.n3 + σ.n4 - 1) * σ.Q4 j

/-- Effect of one call. -/
def step (P : Params) (σ : State K S) : Op K S → Option (State K S)
  | .next => nextTimeStep P σ
  | .set l => some (setCurrentLoad P σ l)

/-- State after a sequence of calls on a new object; `none` once a call has failed. -/
def run (P : Params) (ops : List (Op K S)) : Option (State K S) :=
  ops.foldl (fun σ op => σ.bind fun σ => step P σ op) (some init)

end Verif.LoadAgg.MLAA
