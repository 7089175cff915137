import Verif.LoadAgg.Ops
import Mathlib.Data.Matrix.Mul
import Mathlib.Data.Fin.VecNotation
import Mathlib.Algebra.BigOperators.Fin
import Mathlib.Algebra.Order.Field.Basic

/-!
# Model of `load_aggregation.ClaessonJaved`

Source: `/repo/pygfunction/load_aggregation.py`, class `ClaessonJaved` (l. 46-226).

Simplifications: floats are elements of a field `K`; the sources are indexed by a
finite type `S`, the aggregation cells by `Fin (n+1)` (the time grid is never empty for
`tmax > 0`; for `tmax ≤ 0` the Python constructor fails on a shape mismatch).  The
conversion of a one-element result into a Python scalar (`_scalar_output`,
l. 96-99, 194-195) is modelled in `ShapeModel`.
-/

namespace Verif.LoadAgg.CJ

open Finset

variable {K : Type*} [Field K] {S : Type*} {n : ℕ}

/-- Cell contents `self.q_b`, an array of shape `(nSources, nt)` (l. 221). -/
abbrev Cells (K S : Type*) (n : ℕ) := S → Fin (n + 1) → K

/-- `self.q_b = np.zeros((nSources, nt))` (l. 221). -/
def initCells : Cells K S n := fun _ _ => 0

/-- The shift matrix `self.A` (l. 224-225):
`(1 - 1/width) * eye(nt) + diag(1/width[1:], k=1)`.
The row vector `(1 - 1/width)` is broadcast along the columns, and
`diag(v, k=1)` has the entry `v[j-1]`, i.e. `1/width[j]`, at position `(j-1, j)`. -/
def shiftMatrix (w : Fin (n + 1) → K) : Matrix (Fin (n + 1)) (Fin (n + 1)) K :=
  fun i j => (1 - 1 / w j) * (if i = j then 1 else 0)
    + (if i.val + 1 = j.val then 1 / w j else 0)

/-- `next_time_step`: `self.q_b = self.q_b @ self.A` (l. 117). -/
def nextTimeStep (w : Fin (n + 1) → K) (q : Cells K S n) : Cells K S n :=
  fun s => Matrix.vecMul (q s) (shiftMatrix w)

/-- `set_current_load`: `self.q_b[:,0] = q_b` (l. 167). -/
def setCurrentLoad (q : Cells K S n) (l : S → K) : Cells K S n :=
  fun s => Function.update (q s) 0 (l s)

/-- `initialize` (l. 103-105): increments of the thermal response factors. -/
def increments (g : S → S → Fin (n + 1) → K) : S → S → Fin (n + 1) → K :=
  fun i j k => if h : k = 0 then g i j 0 else g i j k - g i j (k.pred h).castSucc

/-- `temporal_superposition`: `np.einsum('ijk,jk', self.dg, self.q_b)` (l. 193). -/
def temporalSuperposition [Fintype S] (dg : S → S → Fin (n + 1) → K) (q : Cells K S n) :
    S → K :=
  fun i => ∑ j, ∑ k, dg i j k * q j k

/-- `_width` (l. 217-218): `hstack((1, (time[1:] - time[:-1])/dt))`. -/
def widths (dt : K) (time : Fin (n + 1) → K) : Fin (n + 1) → K :=
  fun k => if h : k = 0 then 1 else (time k - time (k.pred h).castSucc) / dt

/-- Effect of one call. -/
def step (w : Fin (n + 1) → K) (q : Cells K S n) : Op K S → Cells K S n
  | .next => nextTimeStep w q
  | .set l => setCurrentLoad q l

/-- State after a sequence of calls on a new object. -/
def run (w : Fin (n + 1) → K) (ops : List (Op K S)) : Cells K S n :=
  ops.foldl (step w) initCells

end Verif.LoadAgg.CJ
