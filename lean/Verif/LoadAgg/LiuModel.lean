import Verif.LoadAgg.Ops
import Verif.Tac

/-!
# Model of `load_aggregation.Liu`

Source: `/repo/pygfunction/load_aggregation.py`, class `Liu` (l. 473-721).

Simplifications: floats are elements of a field `K`; an array over cells is a function on
`ℕ` together with its allocated length; a write beyond the allocated length (an
`IndexError` in Python) is the error value `none`.  The index `-1`, which the code uses
when a level is empty, is modelled as the last allocated position.
-/

namespace Verif.LoadAgg.Liu

open Finset

variable {K : Type*} [Field K] {S : Type*}

/-- Constructor arguments kept by the object: block sizes `N1..N3`, waiting periods `W1..W3`
(l. 709-714) and the allocated number of large cells `N4` (l. 720). -/
structure Params where
  N1 : ℕ
  N2 : ℕ
  N3 : ℕ
  W1 : ℕ
  W2 : ℕ
  W3 : ℕ
  N4 : ℕ

/-- `N4 = int(np.ceil(Nt/(N1*N2*N3)))` (l. 720), for positive block sizes. -/
def Params.N4Ok (P : Params) (Nt : ℕ) : Prop :=
  P.N4 = (Nt + (P.N1 * P.N2 * P.N3 - 1)) / (P.N1 * P.N2 * P.N3)

/-- Object state (l. 704-708, 716-721). -/
structure State (K S : Type*) where
  nt : ℕ
  n0 : ℕ
  n1 : ℕ
  n2 : ℕ
  n3 : ℕ
  Q0 : ℕ → S → K
  Q1 : ℕ → S → K
  Q2 : ℕ → S → K
  Q3 : ℕ → S → K

/-- `_build_cells` (l. 703-721). -/
def init : State K S :=
  { nt := 0, n0 := 0, n1 := 0, n2 := 0, n3 := 0
    Q0 := fun _ _ => 0, Q1 := fun _ _ => 0, Q2 := fun _ _ => 0, Q3 := fun _ _ => 0 }

/-- The shift loop `for i in range(n-1, 0, -1): Q[:,i] = Q[:,i-1]` (l. 559-560, 569-570,
583-584, 597-598). -/
def shiftLoop (n : ℕ) (Q : ℕ → S → K) : ℕ → S → K :=
  (List.range' 1 (n - 1)).reverse.foldl (fun Q i => Function.update Q i (Q (i - 1))) Q

/-- Shift by one, then store `v` in the first cell. -/
def push (n : ℕ) (Q : ℕ → S → K) (v : S → K) : ℕ → S → K :=
  Function.update (shiftLoop n Q) 0 v

/-- `np.mean(Q[:, n-N:n], axis=1)` (l. 573, 587, 601). -/
def tailMean (Q : ℕ → S → K) (n N : ℕ) : S → K :=
  fun s => (∑ i ∈ range N, Q (n - N + i) s) / (N : K)

/-- Creation of a large cell (l. 594-603). -/
def promote3 (P : Params) (σ : State K S) : Option (State K S) :=
  if P.N3 + P.W3 ≤ σ.n2 then
    let n3 := σ.n3 + 1
    if P.N4 < n3 then none
    else some { σ with n3 := n3, Q3 := push n3 σ.Q3 (tailMean σ.Q2 σ.n2 P.N3), n2 := σ.n2 - P.N3 }
  else some σ

/-- Creation of a medium cell (l. 580-603). -/
def promote2 (P : Params) (σ : State K S) : Option (State K S) :=
  if P.N2 + P.W2 ≤ σ.n1 then
    let n2 := σ.n2 + 1
    if P.N3 + P.W3 < n2 then none
    else promote3 P
      { σ with n2 := n2, Q2 := push n2 σ.Q2 (tailMean σ.Q1 σ.n1 P.N2), n1 := σ.n1 - P.N2 }
  else some σ

/-- Creation of a small cell (l. 566-603). -/
def promote1 (P : Params) (σ : State K S) : Option (State K S) :=
  if P.N1 + P.W1 ≤ σ.n0 then
    let n1 := σ.n1 + 1
    if P.N2 + P.W2 < n1 then none
    else promote2 P
      { σ with n1 := n1, Q1 := push n1 σ.Q1 (tailMean σ.Q0 σ.n0 P.N1), n0 := σ.n0 - P.N1 }
  else some σ

/-- `next_time_step` (l. 555-603). -/
def nextTimeStep (P : Params) (σ : State K S) : Option (State K S) :=
  let n0 := σ.n0 + 1
  if P.N1 + P.W1 < n0 then none
  else promote1 P { σ with nt := σ.nt + 1, n0 := n0, Q0 := push n0 σ.Q0 (fun _ => 0) }

/-- `set_current_load` (l. 630). -/
def setCurrentLoad (σ : State K S) (l : S → K) : State K S :=
  { σ with Q0 := Function.update σ.Q0 0 l }

/-- The Python index `n - 1` into an array of length `cap`: `-1` is the last position. -/
def pyPred (cap n : ℕ) : ℕ := if n = 0 then cap - 1 else n - 1

/-- `temporal_superposition` (l. 650-672).  `G i j k` is `g_d[i, j, k]` for `k < Ng`, the
number of entries of `g_d`. -/
def temporalSuperposition [Fintype S] (P : Params) (Ng : ℕ) (G : S → S → ℕ → K)
    (σ : State K S) : S → K :=
  fun i =>
    -- l. 651-653
    ∑ t ∈ range (σ.n0 - 1), ∑ j, G i j t * (σ.Q0 t j - σ.Q0 (t + 1) j)
    + ∑ j, G i j (pyPred Ng σ.n0) * (σ.Q0 (pyPred (P.N1 + P.W1) σ.n0) j - σ.Q1 0 j)
    -- l. 654-658
    + ∑ t ∈ range (σ.n1 - 1), ∑ j, G i j (σ.n0 + (t + 1) * P.N1 - 1)
        * (σ.Q1 t j - σ.Q1 (t + 1) j)
    + ∑ j, G i j (pyPred Ng (σ.n0 + σ.n1 * P.N1))
        * (σ.Q1 (pyPred (P.N2 + P.W2) σ.n1) j - σ.Q2 0 j)
    -- l. 659-663
    + ∑ t ∈ range (σ.n2 - 1), ∑ j, G i j (σ.n0 + σ.n1 * P.N1 + (t + 1) * P.N2 * P.N1 - 1)
        * (σ.Q2 t j - σ.Q2 (t + 1) j)
    + ∑ j, G i j (pyPred Ng (σ.n0 + σ.n1 * P.N1 + σ.n2 * P.N1 * P.N2))
        * (σ.Q2 (pyPred (P.N3 + P.W3) σ.n2) j - σ.Q3 0 j)
    -- l. 664-670
    + ∑ t ∈ range (σ.n3 - 1), ∑ j,
        G i j (σ.n0 + σ.n1 * P.N1 + σ.n2 * P.N2 * P.N1 + (t + 1) * P.N3 * P.N2 * P.N1 - 1)
        * (σ.Q3 t j - σ.Q3 (t + 1) j)
    + ∑ j, G i j (pyPred Ng
          (σ.n0 + (σ.n1 * P.N1 + σ.n2 * P.N1 * P.N2 + σ.n3 * P.N1 * P.N2 * P.N3)))
        * σ.Q3 (pyPred P.N4 σ.n3) j

/-- Effect of one call. -/
def step (P : Params) (σ : State K S) : Op K S → Option (State K S)
  | .next => nextTimeStep P σ
  | .set l => some (setCurrentLoad σ l)

/-- State after a sequence of calls on a new object; `none` once a call has failed. -/
def run (P : Params) (ops : List (Op K S)) : Option (State K S) :=
  ops.foldl (fun σ op => σ.bind fun σ => step P σ op) (some init)

end Verif.LoadAgg.Liu
